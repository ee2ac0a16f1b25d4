import Verif.Spec.ConfigString
import Verif.Lemmas.JsonTidy
import Verif.Lemmas.HeapRep
import Verif.Props.Json
/-!
# C84: the text of a processor
-/

namespace Sawmill
open Rfc

theorem plainChars_spec : ∀ (n : Nat) (s : Bytes), s.length ≤ n → ∃ s', Repaired s s' ∧ Chars (plainChars n s) s' := by
  intro n
  induction n with
  | zero =>
    intro s h
    cases s with
    | nil => exact ⟨[], .nil, .nil⟩
    | cons => simp at h
  | succ n ih =>
    intro s h
    cases s with
    | nil => exact ⟨[], .nil, .nil⟩
    | cons b r =>
      simp only [plainChars]
      split
      · next hb =>
        obtain ⟨s', h1, h2⟩ := ih r (by simp at h; omega)
        obtain ⟨c, hc, hu⟩ := utf8_of_ascii hb
        refine ⟨b :: s', ?_, ?_⟩
        · have := Repaired.char c r s' h1
          rw [hu] at this
          exact this
        · split
          · next hq => exact .escape b b _ _ (by rcases hq with rfl | rfl <;> decide) h2
          · split
            · next hq => subst hq; exact .escape 110 10 _ _ (by decide) h2
            · split
              · next hq => subst hq; exact .escape 114 13 _ _ (by decide) h2
              · split
                · next hq => subst hq; exact .escape 116 9 _ _ (by decide) h2
                · split
                  · have hh := hexDigit_spec (n := b.toNat / 16) (by omega)
                    have hl := hexDigit_spec (n := b.toNat % 16) (by omega)
                    have := Chars.unicode [48, 48, hexDigit (b.toNat / 16), hexDigit (b.toNat % 16)] c _ s'
                      ⟨48, 48, _, _, 0, 0, _, _, rfl, .inl (by decide), .inl (by decide), hh, hl, by omega⟩ h2
                    rw [hu] at this
                    exact this
                  · next hq1 _ _ _ hq2 =>
                    simp only [not_or] at hq1
                    exact .ascii b _ _ (by omega) hb hq1.1 hq1.2 h2
      · next hb =>
        cases hm : multi (b :: r) with
        | none =>
          obtain ⟨s', h1, h2⟩ := ih r (by simp at h; omega)
          refine ⟨utf8 repl ++ s', .invalid b r s' ((multi_none_iff (by omega)).1 hm) h1, ?_⟩
          refine .unicode [102, 102, 102, 100] repl _ s' ?_ h2
          exact ⟨102, 102, 102, 100, 15, 15, 15, 13, rfl, .inr (.inl (by decide)), .inr (.inl (by decide)), .inr (.inl (by decide)), .inr (.inl (by decide)), by decide⟩
        | some x =>
          obtain ⟨m, r'⟩ := x
          obtain ⟨c, hc, rfl, he⟩ := char_of_multi hm
          have hlen : r'.length ≤ n := by
            have h0 := congrArg List.length he
            have : 0 < (utf8 c).length := List.length_pos_iff.2 (utf8_high hc).1
            rw [List.length_append] at h0
            omega
          obtain ⟨s', h1, h2⟩ := ih r' hlen
          refine ⟨utf8 c ++ s', he ▸ .char c r' s' h1, ?_⟩
          simp only
          split
          · next hq =>
            have e : utf8 c = utf8 '\u2028' := by rw [hq]; decide +kernel
            rw [e]
            refine .unicode [50, 48, 50, 56] _ _ s' ?_ h2
            exact ⟨50, 48, 50, 56, 2, 0, 2, 8, rfl, .inl (by decide), .inl (by decide), .inl (by decide), .inl (by decide), by decide⟩
          · split
            · next hq =>
              have e : utf8 c = utf8 '\u2029' := by rw [hq]; decide +kernel
              rw [e]
              refine .unicode [50, 48, 50, 57] _ _ s' ?_ h2
              exact ⟨50, 48, 50, 57, 2, 0, 2, 9, rfl, .inl (by decide), .inl (by decide), .inl (by decide), .inl (by decide), by decide⟩
            · exact .char c _ _ hc h2

theorem plainStr_spec (s : Bytes) : ∃ u s', plainStr s = 34 :: (u ++ [34]) ∧ Repaired s s' ∧ Chars u s' := by
  obtain ⟨s', h1, h2⟩ := plainChars_spec s.length s (Nat.le_refl _)
  exact ⟨_, s', rfl, h1, h2⟩

theorem plain_shows (s : Bytes) : ∃ j, Text j (plainStr s) ∧ ShowsStr s j := by
  obtain ⟨u, s', h1, h2, h3⟩ := plainStr_spec s
  exact ⟨.str s', ⟨u, h1, h3⟩, s', rfl, h2⟩

/-! ## Members of objects -/

/-- A member that is encoded, and the document that it is. -/
def IsMember (x : Bytes × JOut Bytes) (j : Bytes × Json) : Prop := ∃ u t, x.1 = 34 :: (u ++ [34]) ∧ Chars u j.1 ∧ x.2 = .ok t ∧ Text j.2 t

theorem joinMembers : ∀ {xs : List (Bytes × JOut Bytes)} {js : List (Bytes × Json)}, Gen.Rel2 IsMember xs js →
    ∃ t, joinText (fun e : Bytes × JOut Bytes => e.2.bind fun t => .ok (e.1 ++ 58 :: t)) xs = .ok t ∧ BodyE js t := by
  intro xs js hr
  induction hr with
  | nil => exact ⟨[], rfl, rfl⟩
  | @cons x j xs js hx hr ih =>
    obtain ⟨u, t, h1, h2, h3, h4⟩ := hx
    obtain ⟨q, w⟩ := x
    obtain ⟨k, j⟩ := j
    simp only at h1 h2 h3 h4
    subst h1 h3
    obtain ⟨r, e, hb⟩ := ih
    cases hr with
    | nil =>
      refine ⟨34 :: (u ++ 34 :: 58 :: t), ?_, ?_⟩
      · simp [joinText, JOut.bind]
      · exact ⟨u, t, [], by simp, h2, h4, rfl⟩
    | @cons x2 j2 xs js hx hr =>
      rw [joinText_cons, e]
      obtain ⟨k2, j2⟩ := j2
      obtain ⟨q2, u2, r, rfl, hq2, hu, hr2⟩ := hb
      refine ⟨_, by simp only [bind_ok]; rfl, ?_⟩
      exact ⟨u, t, 44 :: (34 :: (q2 ++ 34 :: 58 :: (u2 ++ r))), by simp, h2, h4, [], q2, [], [], u2, [], r, by simp, ws_nil, ws_nil, ws_nil, ws_nil, hq2, hu, hr2⟩

theorem members_text {xs : List (Bytes × JOut Bytes)} {js : List (Bytes × Json)} (h : Gen.Rel2 IsMember xs js) : ∃ t, encMembers xs = .ok t ∧ Text (.obj js) t := by
  obtain ⟨t, e, hb⟩ := joinMembers h
  exact ⟨_, by simp only [encMembers, e, bind_ok], hb.text⟩

theorem members_error {xs : List (Bytes × JOut Bytes)} (hf : ∀ x ∈ xs, x.2 ≠ .fuel) (he : ∃ x ∈ xs, x.2 = .error) : encMembers xs = .error := by
  have : joinText (fun e : Bytes × JOut Bytes => e.2.bind fun t => .ok (e.1 ++ 58 :: t)) xs = .error := by
    induction xs with
    | nil => simp at he
    | cons x xs ih =>
      obtain ⟨q, w⟩ := x
      cases xs with
      | nil =>
        obtain ⟨x, hx, hx2⟩ := he
        simp only [List.mem_singleton] at hx
        subst hx
        simp only at hx2
        simp only [joinText, hx2, bind_error]
      | cons y xs =>
        rw [joinText_cons]
        cases w with
        | error => rfl
        | fuel => exact absurd rfl (hf (q, .fuel) (by simp))
        | ok t =>
          have := ih (fun x hx => hf x (by simp [hx])) (by
            obtain ⟨x, hx, hx2⟩ := he
            rcases List.mem_cons.1 hx with rfl | hx
            · cases hx2
            · exact ⟨x, hx, hx2⟩)
          simp only [bind_ok, this, bind_error]
  simp only [encMembers, this, bind_error]

/-- No control characters. -/
def Printable (r : JOut Bytes) : Prop := ∀ t, r = .ok t → ∀ b ∈ t, 32 ≤ b.toNat

theorem printable_ok {t : Bytes} (h : ∀ b ∈ t, 32 ≤ b.toNat) : Printable (.ok t) := by rintro _ ⟨⟩; exact h

theorem printable_bind {r : JOut Bytes} (h : Printable r) {f : Bytes → JOut Bytes} (hf : ∀ t, (∀ b ∈ t, 32 ≤ b.toNat) → Printable (f t)) : Printable (r.bind f) := by
  cases r with
  | ok t => exact hf t (h t rfl)
  | error => rintro _ ⟨⟩
  | fuel => rintro _ ⟨⟩

theorem printable_join {α : Type} {f : α → JOut Bytes} : ∀ (xs : List α), (∀ x ∈ xs, Printable (f x)) → Printable (joinText f xs)
  | [], _ => printable_ok (by simp)
  | [x], h => h x (by simp)
  | x :: y :: r, h => by
    rw [joinText_cons]
    refine printable_bind (h x (by simp)) fun a ha => printable_bind (printable_join (y :: r) fun z hz => h z (by simp only [List.mem_cons] at hz ⊢; exact .inr hz)) fun b hb => printable_ok ?_
    intro c hc
    simp only [List.mem_append, List.mem_cons] at hc
    rcases hc with hc | rfl | hc
    · exact ha c hc
    · decide
    · exact hb c hc

theorem printable_tidy {r : JOut Bytes} (h : TidyOut r) : Printable r := fun t ht b hb => ((h t ht).bytes b hb).1

theorem printable_members {xs : List (Bytes × JOut Bytes)} (h : ∀ x ∈ xs, (∀ b ∈ x.1, 32 ≤ b.toNat) ∧ Printable x.2) : Printable (encMembers xs) := by
  unfold encMembers
  refine printable_bind (printable_join xs fun x hx => printable_bind (h x hx).2 fun t ht => printable_ok ?_) fun t ht => printable_ok ?_
  · intro b hb
    simp only [List.mem_append, List.mem_cons] at hb
    rcases hb with hb | rfl | hb
    · exact (h x hx).1 b hb
    · decide
    · exact ht b hb
  · intro b hb
    simp only [List.mem_append, List.mem_cons, List.not_mem_nil, or_false] at hb
    rcases hb with rfl | hb | rfl
    · decide
    · exact ht b hb
    · decide

theorem plainChars_bytes : ∀ (n : Nat) (s : Bytes), ∀ b ∈ plainChars n s, 32 ≤ b.toNat := by
  intro n
  induction n with
  | zero => intro s b hb; simp [plainChars] at hb
  | succ n ih =>
    intro s
    cases s with
    | nil => intro b hb; simp [plainChars] at hb
    | cons b r =>
      intro x hx
      have hex : ∀ k, k < 16 → 32 ≤ (hexDigit k).toNat := fun k hk => by
        have := hexDigit_spec hk
        simp only [HexDigit] at this
        omega
      simp only [plainChars] at hx
      split at hx
      · rename_i hb
        rcases List.mem_append.1 hx with hx | hx
        · split at hx
          · rename_i h
            simp only [List.mem_cons, List.not_mem_nil, or_false] at hx
            rcases hx with rfl | rfl
            · decide
            · rcases h with rfl | rfl <;> decide
          · split at hx
            · simp only [List.mem_cons, List.not_mem_nil, or_false] at hx; rcases hx with rfl | rfl <;> decide
            · split at hx
              · simp only [List.mem_cons, List.not_mem_nil, or_false] at hx; rcases hx with rfl | rfl <;> decide
              · split at hx
                · simp only [List.mem_cons, List.not_mem_nil, or_false] at hx; rcases hx with rfl | rfl <;> decide
                · split at hx
                  · simp only [List.mem_cons, List.not_mem_nil, or_false] at hx
                    rcases hx with rfl | rfl | rfl | rfl | rfl | rfl
                    · decide
                    · decide
                    · decide
                    · decide
                    · exact hex _ (by omega)
                    · exact hex _ (by omega)
                  · simp only [List.mem_singleton] at hx; subst hx; omega
        · exact ih r x hx
      · split at hx
        · rcases List.mem_append.1 hx with hx | hx
          · have : ∀ y ∈ ([92, 117, 102, 102, 102, 100] : Bytes), 32 ≤ y.toNat := by decide
            exact this x hx
          · exact ih r x hx
        · rename_i m r' hm
          obtain ⟨c, hc, rfl, _⟩ := char_of_multi hm
          rcases List.mem_append.1 hx with hx | hx
          · split at hx
            · have : ∀ y ∈ ([92, 117, 50, 48, 50, 56] : Bytes), 32 ≤ y.toNat := by decide
              exact this x hx
            · split at hx
              · have : ∀ y ∈ ([92, 117, 50, 48, 50, 57] : Bytes), 32 ≤ y.toNat := by decide
                exact this x hx
              · have := (utf8_high hc).2 x hx; omega
          · exact ih r' x hx

theorem plainStr_bytes (s : Bytes) : ∀ b ∈ plainStr s, 32 ≤ b.toNat := by
  intro b hb
  simp only [plainStr, List.mem_cons, List.mem_append, List.not_mem_nil, or_false] at hb
  rcases hb with rfl | hb | rfl
  · decide
  · exact plainChars_bytes _ _ b hb
  · decide

/-! ## Values -/

/-- The members of a map of values. -/
theorem objMembers_good {env : JEnv} (hl : env.Lawful) {h : Heap} {n : Nat} : ∀ {es : List (Bytes × Val)} {ps : List (Bytes × Ptr)}, ReadsE h ps es → Val.depthE es ≤ n → Val.FiniteFloatsE es → Val.nestE es ≤ 10000 →
    ∃ js, Gen.Rel2 IsMember (ps.map fun e => (plainStr e.1, marshalPtr env h n e.2)) js ∧ SaysE env es js
  | [], [], _, _, _, _ => ⟨[], .nil, rfl⟩
  | [], _ :: _, hr, _, _, _ => by simp [ReadsE] at hr
  | _ :: _, [], hr, _, _, _ => by simp [ReadsE] at hr
  | (k, v) :: es, (k0, p) :: ps, hr, hd, hf, hn => by
    obtain ⟨rfl, h1, h2⟩ := hr
    simp only [Val.depthE] at hd
    simp only [Val.nestE] at hn
    obtain ⟨js, i1, i2⟩ := objMembers_good (n := n) hl h2 (by omega) hf.2 (by omega)
    rcases marshalPtr_spec hl v h1 n (by omega) with ⟨_, t, e, j, ht, hs⟩ | ⟨hc, _⟩
    · obtain ⟨u, s', e2, h3, h4⟩ := plainStr_spec k0
      exact ⟨(s', j) :: js, .cons ⟨u, t, e2, h4, e, ht⟩ i1, s', j, js, rfl, h3, hs, i2⟩
    · exact absurd ⟨hf.1, by omega⟩ hc

theorem objMembers_nofuel {env : JEnv} (hl : env.Lawful) {h : Heap} {n : Nat} : ∀ {es : List (Bytes × Val)} {ps : List (Bytes × Ptr)}, ReadsE h ps es → Val.depthE es ≤ n →
    (∀ x ∈ ps.map fun e => (plainStr e.1, marshalPtr env h n e.2), x.2 ≠ .fuel) ∧ (¬ (Val.FiniteFloatsE es ∧ Val.nestE es ≤ 10000) → ∃ x ∈ ps.map fun e => (plainStr e.1, marshalPtr env h n e.2), x.2 = .error)
  | [], [], _, _ => ⟨by simp, fun hc => absurd ⟨trivial, by simp [Val.nestE]⟩ hc⟩
  | [], _ :: _, hr, _ => by simp [ReadsE] at hr
  | _ :: _, [], hr, _ => by simp [ReadsE] at hr
  | (k, v) :: es, (k0, p) :: ps, hr, hd => by
    obtain ⟨rfl, h1, h2⟩ := hr
    simp only [Val.depthE] at hd
    obtain ⟨i1, i2⟩ := objMembers_nofuel (n := n) hl h2 (by omega)
    rcases marshalPtr_spec hl v h1 n (by omega) with ⟨hok, t, e, _⟩ | ⟨hc, e⟩
    · refine ⟨?_, fun hc => ?_⟩
      · intro x hx
        simp only [List.map_cons, List.mem_cons] at hx
        rcases hx with rfl | hx
        · rw [e]; simp
        · exact i1 x hx
      · obtain ⟨x, hx, he⟩ := i2 (fun hh => hc ⟨⟨hok.1, hh.1⟩, by simp only [Val.nestE]; omega⟩)
        exact ⟨x, by simp only [List.map_cons]; exact List.mem_cons_of_mem _ hx, he⟩
    · refine ⟨?_, fun _ => ⟨(plainStr k0, marshalPtr env h n p), by simp, e⟩⟩
      intro x hx
      simp only [List.map_cons, List.mem_cons] at hx
      rcases hx with rfl | hx
      · rw [e]; simp
      · exact i1 x hx

/-- How deep the parts of a value are. -/
def partsDepth (arr : Option (List Val)) (obj : Option (List (Bytes × Val))) : Nat := max (Val.depthL (arr.getD [])) (Val.depthE (obj.getD []))

theorem quoted_member {k : Bytes} (hk : ∀ b ∈ k, plainByte b) {j : Json} {t : Bytes} (ht : Text j t) : IsMember (quoted k, .ok t) (k, j) := ⟨k, t, rfl, chars_plain hk, rfl, ht⟩

theorem eventValue_array {env : JEnv} (hl : env.Lawful) {h : Heap} {n : Nat} {c : Cell} {arr : Option (List Val)} {obj : Option (List (Bytes × Val))} (hp : Parts h c arr obj) (hn : partsDepth arr obj ≤ n) :
    EncOut (∀ vs, arr = some vs → Val.FiniteFloatsL vs ∧ Val.nestL vs ≤ 10000) (fun t => ∃ j, Text j t ∧ Says env (arrayVal arr) j)
      (encSlice env h n c.array) := by
  rcases hp.arr with ⟨h1, rfl⟩ | ⟨ps, vs, h1, rfl, h2⟩
  · rw [h1]
    exact .inl ⟨by simp, _, rfl, .null, text_null, rfl⟩
  · rw [h1]
    simp only [partsDepth, Option.getD_some] at hn
    rcases marshalItems_spec hl vs h2 n (by omega) with ⟨hok, t, e, js, hb, hs⟩ | ⟨hc, e⟩
    · refine .inl ⟨fun _ h => by cases h; exact hok, _, by simp only [encSlice, e, bind_ok], .arr js, hb.text, js, rfl, hs⟩
    · exact .inr ⟨fun h => hc (h vs rfl), by simp only [encSlice, e, bind_error]⟩

theorem eventValue_object {env : JEnv} (hl : env.Lawful) {h : Heap} {n : Nat} {c : Cell} {arr : Option (List Val)} {obj : Option (List (Bytes × Val))} (hp : Parts h c arr obj) (hn : partsDepth arr obj ≤ n) :
    EncOut (∀ es, obj = some es → Val.FiniteFloatsE es ∧ Val.nestE es ≤ 10000) (fun t => ∃ j, Text j t ∧ Says env (objectVal obj) j)
      (encMap env h n c.object) := by
  rcases hp.obj with ⟨h1, rfl⟩ | ⟨m, ps, es, h1, hm, rfl, h2⟩
  · rw [h1]
    exact .inl ⟨by simp, _, rfl, .null, text_null, rfl⟩
  · rw [h1]
    simp only [encMap, mapOf_at hm]
    simp only [partsDepth, Option.getD_some] at hn
    by_cases hok : Val.FiniteFloatsE es ∧ Val.nestE es ≤ 10000
    · obtain ⟨js, hr, hs⟩ := objMembers_good (n := n) hl h2 (by omega) hok.1 hok.2
      obtain ⟨t, e, ht⟩ := members_text hr
      exact .inl ⟨fun _ h => by cases h; exact hok, t, e, _, ht, js, rfl, hs⟩
    · obtain ⟨i1, i2⟩ := objMembers_nofuel (n := n) hl h2 (by omega)
      exact .inr ⟨fun h => hok (h es rfl), members_error i1 (i2 hok)⟩

theorem plain_name {k : Bytes} (h : k.all (fun b => decide (32 ≤ b.toNat ∧ b.toNat < 128 ∧ b ≠ 34 ∧ b ≠ 92)) = true) : ∀ b ∈ k, plainByte b := by
  intro b hb
  have := List.all_eq_true.1 h b hb
  simpa [plainByte] using this

theorem boolText (b : Bool) : Text (.bool b) (if b then lit "true" else lit "false") := rfl

theorem eventValue_spec {env : JEnv} (hl : env.Lawful) {h : Heap} {n : Nat} {c : Cell} {arr : Option (List Val)} {obj : Option (List (Bytes × Val))} (hp : Parts h c arr obj) (hn : partsDepth arr obj ≤ n) :
    EncOut (finite c.float = true ∧ PartsFine arr obj) (fun t => ∃ j, Text j t ∧ ShowsValue env c arr obj j) (encEventValue env h n c) := by
  obtain ⟨ts, h1, h2⟩ := timestamp_json c.timestamp
  have hc : compact (timeMarshalJSON c.timestamp.toInt) = .ok (timeMarshalJSON c.timestamp.toInt) := compact_ok h1 (by simp [depth])
  obtain ⟨js, h3, h4⟩ := plain_shows c.string
  have ha := eventValue_array hl hp hn
  have ho := eventValue_object hl hp hn
  unfold encEventValue
  rw [hc]
  generalize encSlice env h n c.array = ra at ha ⊢
  generalize encMap env h n c.object = ro at ho ⊢
  by_cases hok : finite c.float = true ∧ PartsFine arr obj
  · rcases ha with ⟨_, ta, rfl, ja, a1, a2⟩ | ⟨hx, _⟩
    · rcases ho with ⟨_, tob, rfl, jo, o1, o2⟩ | ⟨hx, _⟩
      · rw [if_pos hok.1]
        obtain ⟨t, e, ht⟩ := members_text (.cons (quoted_member (k := lit "Integer") (plain_name (by decide)) (j := .num _) ⟨rfl, (intLit_int c.integer.toInt).1⟩) (.cons (quoted_member (k := lit "UnsignedInteger") (plain_name (by decide)) (j := .num _) ⟨rfl, (intLit_nat c.unsigned.toNat).1⟩)
          (.cons (quoted_member (k := lit "Float") (plain_name (by decide)) (j := .num _) ⟨rfl, hl.number _ hok.1⟩) (.cons (quoted_member (k := lit "Timestamp") (plain_name (by decide)) h1)
          (.cons (quoted_member (k := lit "String") (plain_name (by decide)) h3) (.cons (quoted_member (k := lit "Array") (plain_name (by decide)) a1) (.cons (quoted_member (k := lit "Object") (plain_name (by decide)) o1)
          (.cons (quoted_member (k := lit "Bool") (plain_name (by decide)) (boolText c.bool)) (.cons (quoted_member (k := lit "Type") (plain_name (by decide)) (j := .num _) ⟨rfl, (intLit_nat (typeNum c.type)).1⟩) .nil)))))))))
        refine .inl ⟨hok, t, e, _, ht, _, _, _, _, _, _, _, rfl, intLit_int _, intLit_nat _, h2, h4, a2, o2, intLit_nat _⟩
      · exact absurd hok.2.2 hx
    · exact absurd hok.2.1 hx
  · refine .inr ⟨hok, members_error ?_ ?_⟩
    · have na : ra ≠ .fuel := by rcases ha with ⟨_, _, rfl, _⟩ | ⟨_, rfl⟩ <;> simp
      have no : ro ≠ .fuel := by rcases ho with ⟨_, _, rfl, _⟩ | ⟨_, rfl⟩ <;> simp
      have nf : (if finite c.float = true then JOut.ok (env.ftoa c.float) else .error) ≠ .fuel := by split <;> simp
      simpa using ⟨nf, na, no⟩
    · by_cases hf : finite c.float = true
      · rcases ha with ⟨ha, _⟩ | ⟨_, rfl⟩
        · rcases ho with ⟨ho, _⟩ | ⟨_, rfl⟩
          · exact absurd ⟨hf, ha, ho⟩ hok
          · exact ⟨(quoted (lit "Object"), .error), by simp, rfl⟩
        · exact ⟨(quoted (lit "Array"), .error), by simp, rfl⟩
      · exact ⟨(quoted (lit "Float"), .error), by simp [hf], rfl⟩

/-! ## Options -/

theorem strs_text : ∀ (l : List Bytes), ∃ t js, joinText (fun s => JOut.ok (plainStr s)) l = .ok t ∧ Body js t ∧ Gen.Rel2 ShowsStr l js
  | [] => ⟨[], [], rfl, rfl, .nil⟩
  | [s] => by
    obtain ⟨j, h1, h2⟩ := plain_shows s
    exact ⟨_, [j], rfl, ⟨_, [], by simp, h1, rfl⟩, .cons h2 .nil⟩
  | s :: s2 :: l => by
    obtain ⟨j, h1, h2⟩ := plain_shows s
    obtain ⟨t, js, h3, h4, h5⟩ := strs_text (s2 :: l)
    cases h5 with
    | @cons _ j2 _ js a b =>
      obtain ⟨u, r, rfl, hu, hr⟩ := h4
      refine ⟨plainStr s ++ 44 :: (u ++ r), j :: j2 :: js, by rw [joinText_cons, h3]; simp only [bind_ok], ?_, .cons h2 (.cons a b)⟩
      exact ⟨plainStr s, 44 :: (u ++ r), rfl, h1, [], u, [], r, by simp, ws_nil, ws_nil, hu, hr⟩

/-- How much recursion an option needs. -/
def NeedsAtMost (h : Heap) (n : Nat) : StructField → Prop
  | .value c => ∃ arr obj, Parts h c arr obj ∧ partsDepth arr obj ≤ n
  | _ => True

def FieldFine (h : Heap) : StructField → Prop
  | .value c => finite c.float = true ∧ ∀ arr obj, Parts h c arr obj → PartsFine arr obj
  | _ => True

theorem parts_unique {h : Heap} {c : Cell} {a a' : Option (List Val)} {o o' : Option (List (Bytes × Val))} (h1 : Parts h c a o) (h2 : Parts h c a' o') : a = a' ∧ o = o' := by
  constructor
  · rcases h1.arr with ⟨e1, rfl⟩ | ⟨ps, vs, e1, rfl, r1⟩ <;> rcases h2.arr with ⟨e2, rfl⟩ | ⟨ps', vs', e2, rfl, r2⟩ <;> rw [e1] at e2 <;> cases e2
    · rw [readsL_inj vs vs' r1 r2]
  · rcases h1.obj with ⟨e1, rfl⟩ | ⟨m, ps, vs, e1, hm, rfl, r1⟩ <;> rcases h2.obj with ⟨e2, rfl⟩ | ⟨m', ps', vs', e2, hm', rfl, r2⟩ <;> rw [e1] at e2 <;> cases e2
    · rw [hm] at hm'; cases hm'; rw [readsE_inj vs vs' r1 r2]

theorem field_spec {env : JEnv} (hl : env.Lawful) {h : Heap} {n : Nat} (f : StructField) (hn : NeedsAtMost h n f) :
    EncOut (FieldFine h f) (fun t => ∃ j, Text j t ∧ ShowsField env h f j) (encField env h n f) := by
  match f with
  | .str s =>
    obtain ⟨j, h1, h2⟩ := plain_shows s
    exact .inl ⟨trivial, _, rfl, j, h1, h2⟩
  | .bool b => exact .inl ⟨trivial, _, rfl, _, boolText b, rfl⟩
  | .int16 i => exact .inl ⟨trivial, _, rfl, .num _, ⟨rfl, (intLit_int _).1⟩, _, rfl, intLit_int _⟩
  | .strs none => exact .inl ⟨trivial, _, rfl, .null, text_null, rfl⟩
  | .strs (some l) =>
    obtain ⟨t, js, h1, h2, h3⟩ := strs_text l
    exact .inl ⟨trivial, _, by simp only [encField, h1, bind_ok], .arr js, h2.text, js, rfl, h3⟩
  | .value c =>
    obtain ⟨arr, obj, hp, hd⟩ := hn
    rcases eventValue_spec hl hp hd with ⟨hok, t, e, j, h1, h2⟩ | ⟨hc, e⟩
    · refine .inl ⟨⟨hok.1, fun a o hp' => ?_⟩, t, e, j, h1, arr, obj, hp, h2⟩
      obtain ⟨rfl, rfl⟩ := parts_unique hp hp'
      exact hok.2
    · exact .inr ⟨fun hh => hc ⟨hh.1, hh.2 _ _ hp⟩, e⟩

theorem config_spec {env : JEnv} (hl : env.Lawful) {h : Heap} {n : Nat} : ∀ (fs : List (Bytes × StructField)), (∀ f ∈ fs, (∀ b ∈ f.1, plainByte b) ∧ NeedsAtMost h n f.2) →
    ((∀ f ∈ fs, FieldFine h f.2) → ∃ js, Gen.Rel2 IsMember (fs.map fun f => (quoted f.1, encField env h n f.2)) js ∧ Gen.Rel2 (fun f j => j.1 = f.1 ∧ ShowsField env h f.2 j.2) fs js) ∧
    (∀ x ∈ fs.map fun f => (quoted f.1, encField env h n f.2), x.2 ≠ .fuel) ∧
    (¬ (∀ f ∈ fs, FieldFine h f.2) → ∃ x ∈ fs.map fun f => (quoted f.1, encField env h n f.2), x.2 = .error)
  | [], _ => ⟨fun _ => ⟨[], .nil, .nil⟩, by simp, fun hc => absurd (by simp) hc⟩
  | f :: fs, hf => by
    obtain ⟨i1, i2, i3⟩ := config_spec hl fs fun x hx => hf x (List.mem_cons_of_mem _ hx)
    have hf0 := hf f (by simp)
    have hs := field_spec hl f.2 hf0.2
    refine ⟨fun hok => ?_, ?_, fun hno => ?_⟩
    · obtain ⟨js, h1, h2⟩ := i1 fun x hx => hok x (List.mem_cons_of_mem _ hx)
      rcases hs with ⟨_, t, e, j, ht, hj⟩ | ⟨hc, _⟩
      · exact ⟨(f.1, j) :: js, .cons ⟨f.1, t, rfl, chars_plain hf0.1, e, ht⟩ h1, .cons ⟨rfl, hj⟩ h2⟩
      · exact absurd (hok f (by simp)) hc
    · intro x hx
      simp only [List.map_cons, List.mem_cons] at hx
      rcases hx with rfl | hx
      · rcases hs with ⟨_, t, e, _⟩ | ⟨_, e⟩ <;> simp [e]
      · exact i2 x hx
    · rcases hs with ⟨hff, _⟩ | ⟨_, e⟩
      · obtain ⟨x, hx, he⟩ := i3 fun hall => hno fun x hx => by
          rcases List.mem_cons.1 hx with rfl | hx
          · exact hff
          · exact hall x hx
        exact ⟨x, by simp only [List.map_cons]; exact List.mem_cons_of_mem _ hx, he⟩
      · exact ⟨(quoted f.1, encField env h n f.2), by simp, e⟩

theorem fields_fine (h : Heap) (p : PConfig) : (∀ f ∈ p.fields, FieldFine h f.2) ↔ p.Encodable h := by
  cases p <;> simp [PConfig.fields, PConfig.Encodable, FieldFine]

theorem fields_need {h : Heap} {p : PConfig} (hp : p.Finite h) : ∃ N, ∀ n, N ≤ n → ∀ f ∈ p.fields, (∀ b ∈ f.1, plainByte b) ∧ NeedsAtMost h n f.2 := by
  have names : ∀ f ∈ p.fields, ∀ b ∈ f.1, plainByte b := by
    intro f hf
    refine plain_name ?_
    revert f
    cases p <;> simp only [PConfig.fields, List.mem_cons, List.not_mem_nil, or_false, forall_eq_or_imp, forall_eq] <;> decide
  cases p with
  | set c f m t v =>
    obtain ⟨arr, obj, hpt⟩ := hp
    refine ⟨partsDepth arr obj, fun n hn x hx => ⟨names x hx, ?_⟩⟩
    simp only [PConfig.fields, List.mem_cons, List.not_mem_nil, or_false] at hx
    rcases hx with rfl | rfl | rfl | rfl | rfl
    · trivial
    · trivial
    · trivial
    · trivial
    · exact ⟨arr, obj, hpt, hn⟩
  | _ =>
    refine ⟨0, fun n hn x hx => ⟨names x hx, ?_⟩⟩
    simp only [PConfig.fields, List.mem_cons, List.not_mem_nil, or_false] at hx
    rcases hx with rfl | hx
    · trivial
    all_goals (repeat (rcases hx with rfl | hx; · trivial))

/-! ## The bound does not matter -/

theorem encMembers_mono : ∀ {xs ys : List (Bytes × JOut Bytes)}, Gen.Rel2 (fun x y : Bytes × JOut Bytes => x.1 = y.1 ∧ Refines x.2 y.2) xs ys → Refines (encMembers xs) (encMembers ys) := by
  intro xs ys hr
  refine Refines.bind ?_ fun _ => Refines.refl _
  induction hr with
  | nil => exact Refines.refl _
  | @cons x y xs ys h hr ih =>
    obtain ⟨q, w⟩ := x
    obtain ⟨q', w'⟩ := y
    obtain ⟨h1, h2⟩ := h
    simp only at h1 h2
    subst h1
    cases hr with
    | nil => exact Refines.bind h2 fun _ => Refines.refl _
    | @cons x2 y2 xs ys h3 h4 =>
      rw [joinText_cons, joinText_cons]
      exact Refines.bind (Refines.bind h2 fun _ => Refines.refl _) fun _ => Refines.bind ih fun _ => Refines.refl _

theorem rel2_map {α β γ : Type} {R : β → γ → Prop} {f : α → β} {g : α → γ} (h : ∀ x, R (f x) (g x)) : ∀ (l : List α), Gen.Rel2 R (l.map f) (l.map g)
  | [] => .nil
  | x :: l => .cons (h x) (rel2_map h l)

theorem encEventValue_mono (env : JEnv) (h : Heap) (c : Cell) {n n' : Nat} (hn : n ≤ n') : Refines (encEventValue env h n c) (encEventValue env h n' c) := by
  have r {q : Bytes} {x : JOut Bytes} : (fun x y : Bytes × JOut Bytes => x.1 = y.1 ∧ Refines x.2 y.2) (q, x) (q, x) := ⟨rfl, Refines.refl _⟩
  refine (fun ha ho => ?_ : Refines (encSlice env h n c.array) (encSlice env h n' c.array) → Refines (encMap env h n c.object) (encMap env h n' c.object) → _) ?_ ?_
  unfold encEventValue
  generalize encSlice env h n c.array = a at ha ⊢
  generalize encSlice env h n' c.array = a' at ha ⊢
  generalize encMap env h n c.object = o at ho ⊢
  generalize encMap env h n' c.object = o' at ho ⊢
  generalize (if finite c.float then JOut.ok (env.ftoa c.float) else .error) = f
  generalize compact (timeMarshalJSON c.timestamp.toInt) = t
  refine encMembers_mono (.cons r (.cons r (.cons r (.cons r (.cons r (.cons ⟨rfl, ha⟩ (.cons ⟨rfl, ho⟩ (.cons r (.cons r .nil)))))))))
  · cases c.array with
    | none => exact Refines.refl _
    | some ps => exact Refines.bind (joinText_mono (fun p => marshalPtr_mono env h p hn) ps) fun _ => Refines.refl _
  · cases c.object with
    | none => exact Refines.refl _
    | some m =>
      show Refines (encMembers _) (encMembers _)
      refine encMembers_mono ?_
      exact rel2_map (fun e => ⟨rfl, marshalPtr_mono env h e.2 hn⟩) _

theorem encConfig_mono (env : JEnv) (h : Heap) (fs : List (Bytes × StructField)) {n n' : Nat} (hn : n ≤ n') :
    Refines (encMembers (fs.map fun f => (quoted f.1, encField env h n f.2))) (encMembers (fs.map fun f => (quoted f.1, encField env h n' f.2))) := by
  refine encMembers_mono (rel2_map (fun f => ⟨rfl, ?_⟩) _)
  cases f.2 with
  | value c => exact encEventValue_mono env h c hn
  | strs l => cases l <;> simp only [encField] <;> exact Refines.refl _
  | _ => simp only [encField]; exact Refines.refl _

/-! ## No control characters -/

theorem printable_lit {t : Bytes} (h : t.all (fun b => decide (32 ≤ b.toNat)) = true) : Printable (.ok t) := printable_ok fun b hb => by
  have := List.all_eq_true.1 h b hb
  simpa using this

theorem printable_bool (b : Bool) : Printable (.ok (if b then lit "true" else lit "false")) := by cases b <;> exact printable_lit (by decide)

theorem printable_number {t : Bytes} (h : Number t) : Printable (.ok t) := printable_tidy (tidyOut_ok (tidy_number h))

theorem quoted_bytes {k : Bytes} (h : k.all (fun b => decide (32 ≤ b.toNat)) = true) : ∀ b ∈ quoted k, 32 ≤ b.toNat := by
  intro b hb
  simp only [quoted, List.mem_cons, List.mem_append, List.not_mem_nil, or_false] at hb
  rcases hb with rfl | hb | rfl
  · decide
  · simpa using List.all_eq_true.1 h b hb
  · decide

theorem printable_array {r : JOut Bytes} (h : Printable r) : Printable (r.bind fun t => .ok (91 :: (t ++ [93]))) := by
  refine printable_bind h fun t ht => printable_ok fun b hb => ?_
  simp only [List.mem_cons, List.mem_append, List.not_mem_nil, or_false] at hb
  rcases hb with rfl | hb | rfl
  · decide
  · exact ht b hb
  · decide

theorem printable_value {env : JEnv} (hl : env.Lawful) (h : Heap) (n : Nat) (c : Cell) : Printable (encEventValue env h n c) := by
  unfold encEventValue
  refine printable_members ?_
  simp only [List.mem_cons, List.not_mem_nil, or_false, forall_eq_or_imp, forall_eq]
  refine ⟨⟨quoted_bytes (by decide), printable_number (intLit_int _).1⟩, ⟨quoted_bytes (by decide), printable_number (intLit_nat _).1⟩, ⟨quoted_bytes (by decide), ?_⟩,
    ⟨quoted_bytes (by decide), printable_tidy (tidyOut_compact (tidy_time _))⟩, ⟨quoted_bytes (by decide), printable_ok (plainStr_bytes _)⟩,
    ⟨quoted_bytes (by decide), ?_⟩, ⟨quoted_bytes (by decide), ?_⟩, ⟨quoted_bytes (by decide), printable_bool _⟩, ⟨quoted_bytes (by decide), printable_number (intLit_nat _).1⟩⟩
  · split
    · next hf => exact printable_number (hl.number _ hf)
    · rintro _ ⟨⟩
  · cases c.array with
    | none => exact printable_lit (by decide)
    | some ps => exact printable_array (printable_join ps fun p _ => printable_tidy (tidy_marshalPtr hl h n p))
  · cases c.object with
    | none => exact printable_lit (by decide)
    | some m =>
      refine printable_members fun x hx => ?_
      obtain ⟨e, _, rfl⟩ := List.mem_map.1 hx
      exact ⟨plainStr_bytes _, printable_tidy (tidy_marshalPtr hl h n e.2)⟩

theorem printable_field {env : JEnv} (hl : env.Lawful) (h : Heap) (n : Nat) : ∀ f, Printable (encField env h n f)
  | .str s => printable_ok (plainStr_bytes s)
  | .bool b => printable_bool b
  | .int16 i => printable_number (intLit_int _).1
  | .strs none => printable_lit (by decide)
  | .strs (some l) => printable_array (printable_join l fun s _ => printable_ok (plainStr_bytes s))
  | .value c => printable_value hl h n c

theorem fields_options (p : PConfig) : p.fields = p.options := by cases p <;> rfl

/-- **C84.** The text of a processor: its name, `=`, a JSON object with every option under its name in Go and in the order of the declarations, and a line feed; everything after the name on one line. If a configured value contains NaN or an infinity (also in a field that its type does not use), or is nested too deeply, only the name and `=`. -/
theorem processor_string {env : JEnv} (hl : env.Lawful) {h : Heap} {p : PConfig} (hp : p.Finite h) :
    ∃ name, p.Called name ∧ (p.Encodable h → ∃ N js t, (∀ n, N ≤ n → p.string env h n = some (name ++ [61] ++ (t ++ [10]))) ∧ Text (.obj js) t ∧ ShowsConfig env h p js ∧ ∀ b ∈ t, 32 ≤ b.toNat) ∧
    (¬ p.Encodable h → ∃ N, ∀ n, N ≤ n → p.string env h n = some (name ++ [61])) := by
  refine ⟨p.name, by cases p <;> rfl, ?_⟩
  obtain ⟨N, hN⟩ := fields_need hp
  have names : ∀ f ∈ p.fields, ∀ b ∈ quoted f.1, 32 ≤ b.toNat := by
    intro f hf
    refine quoted_bytes ?_
    revert f
    cases p <;> simp only [PConfig.fields, List.mem_cons, List.not_mem_nil, or_false, forall_eq_or_imp, forall_eq] <;> decide
  constructor
  · intro he
    obtain ⟨js, h1, h2⟩ := (config_spec hl p.fields (hN N (Nat.le_refl _))).1 ((fields_fine h p).2 he)
    obtain ⟨t, e, ht⟩ := members_text h1
    refine ⟨N, js, t, fun n hn => ?_, ht, by unfold ShowsConfig; rw [← fields_options]; exact h2, ?_⟩
    · have := encConfig_mono env h p.fields hn (by rw [e]; simp)
      simp only [PConfig.string, this, e]
    · refine printable_members (xs := p.fields.map fun f => (quoted f.1, encField env h N f.2)) ?_ t e
      intro x hx
      obtain ⟨f, hf, rfl⟩ := List.mem_map.1 hx
      exact ⟨names f hf, printable_field hl h N f.2⟩
  · intro he
    refine ⟨N, fun n hn => ?_⟩
    obtain ⟨_, h2, h3⟩ := config_spec hl p.fields (hN n hn)
    simp only [PConfig.string, members_error h2 (h3 fun hh => he ((fields_fine h p).1 hh))]

/-! ## What the text says is determined -/

theorem intLit_inj {t : Bytes} {i j : Int} (h1 : IntLit t i) (h2 : IntLit t j) : i = j := by
  obtain ⟨_, d, e1, n1⟩ := h1
  obtain ⟨_, d', e2, n2⟩ := h2
  have key : ∀ {d d' : Bytes} {m : Nat}, d' = 45 :: d → Cal.number d' = some m → False := by
    rintro d d' m rfl hm
    have key2 : ∀ (l : Bytes), List.foldl (fun (acc : Option Nat) b => acc.bind fun n => if isDigit b = true then some (10 * n + (b.toNat - 48)) else none) none l = none := by
      intro l
      induction l with
      | nil => rfl
      | cons b l ih => simpa using ih
    have h45 : isDigit 45 = false := by decide
    simp [Cal.number, h45, key2] at hm
  rw [e1] at e2
  by_cases hi : i < 0 <;> by_cases hj : j < 0 <;> simp only [hi, hj, if_true, if_false, List.nil_append, List.singleton_append, List.cons.injEq, true_and] at e2
  · subst e2; rw [n1] at n2; have := Option.some.inj n2; omega
  · exact (key e2.symm n2).elim
  · exact (key e2 n1).elim
  · subst e2; rw [n1] at n2; have := Option.some.inj n2; omega

theorem showsStr_inj {s s' : Bytes} {j : Json} (hs : ValidUtf8 s) (hs' : ValidUtf8 s') (h1 : ShowsStr s j) (h2 : ShowsStr s' j) : s = s' := by
  obtain ⟨a, rfl, r1⟩ := h1
  obtain ⟨b, e, r2⟩ := h2
  cases e
  rw [Repaired.unique (Repaired.of_valid hs) r1, Repaired.unique (Repaired.of_valid hs') r2]

theorem typeNum_inj {a b : VType} (h : typeNum a = typeNum b) : a = b := by cases a <;> cases b <;> simp [typeNum] at h <;> rfl

def bare (c : Cell) : Cell := { c with array := none, object := none }

theorem showsValue_inj {env : JEnv} (hl : env.Lawful) {c c' : Cell} {a a' : Option (List Val)} {o o' : Option (List (Bytes × Val))} {j : Json}
    (hf : finite c.float = true) (hf' : finite c'.float = true) (hs : ValidUtf8 c.string) (hs' : ValidUtf8 c'.string)
    (h1 : ShowsValue env c a o j) (h2 : ShowsValue env c' a' o' j) : bare c = bare c' := by
  obtain ⟨ti, tu, ts, tt, ss, ja, jo, rfl, i1, i2, i3, i4, _, _, i5⟩ := h1
  obtain ⟨ti', tu', ts', tt', ss', ja', jo', e, k1, k2, k3, k4, _, _, k5⟩ := h2
  simp only [Json.obj.injEq, List.cons.injEq, Prod.mk.injEq, true_and, and_true, Json.num.injEq, Json.str.injEq, Json.bool.injEq] at e
  obtain ⟨rfl, rfl, ef, rfl, rfl, rfl, rfl, eb, rfl⟩ := e
  have e1 := BitVec.eq_of_toInt_eq (intLit_inj i1 k1)
  have e2 := BitVec.eq_of_toNat_eq (Int.ofNat.inj (intLit_inj i2 k2))
  have e3 : c.float = c'.float := by
    have := hl.exact _ hf
    rw [ef, hl.exact _ hf'] at this
    exact (Option.some.inj this).symm
  rw [i3] at k3
  have e4 := BitVec.eq_of_toInt_eq (Option.some.inj k3)
  have e5 := showsStr_inj hs hs' i4 k4
  have e6 := typeNum_inj (Int.ofNat.inj (intLit_inj i5 k5))
  cases c
  cases c'
  simp only at e1 e2 e3 e4 e5 e6 eb
  simp only [bare, e1, e2, e3, e4, e5, e6, eb]

def bareField : StructField → StructField
  | .value c => .value (bare c)
  | f => f

/-- Valid texts and finite numbers. -/
def FieldClean : StructField → Prop
  | .str s => ValidUtf8 s
  | .strs l => ∀ x, l = some x → ∀ s ∈ x, ValidUtf8 s
  | .value c => finite c.float = true ∧ ValidUtf8 c.string
  | _ => True

theorem showsStrs_inj : ∀ {l l' : List Bytes} {js : List Json}, (∀ s ∈ l, ValidUtf8 s) → (∀ s ∈ l', ValidUtf8 s) → Gen.Rel2 ShowsStr l js → Gen.Rel2 ShowsStr l' js → l = l'
  | _, _, _, _, _, .nil, .nil => rfl
  | _, _, _, h, h', .cons a b, .cons a' b' => by
    rw [showsStr_inj (h _ (by simp)) (h' _ (by simp)) a a', showsStrs_inj (fun s hs => h s (by simp [hs])) (fun s hs => h' s (by simp [hs])) b b']

theorem showsField_inj {env : JEnv} (hl : env.Lawful) {h h' : Heap} {f g : StructField} {j : Json} (hf : FieldClean f) (hg : FieldClean g) (h1 : ShowsField env h f j) (h2 : ShowsField env h' g j) : bareField f = bareField g := by
  have nv : ∀ {h : Heap} {c : Cell} {j : Json}, ShowsField env h (.value c) j → ∃ es, j = .obj es := by
    rintro h c j ⟨_, _, _, _, _, _, _, _, _, _, rfl, _⟩
    exact ⟨_, rfl⟩
  rcases f with s | b | i | l | c <;> rcases g with s' | b' | i' | l' | c'
  · rw [showsStr_inj hf hg h1 h2]
  · obtain ⟨_, rfl, _⟩ := h1; cases h2
  · obtain ⟨_, rfl, _⟩ := h1; obtain ⟨_, e, _⟩ := h2; cases e
  · obtain ⟨_, rfl, _⟩ := h1
    cases l' with
    | none => cases h2
    | some l' => obtain ⟨_, e, _⟩ := h2; cases e
  · obtain ⟨_, rfl, _⟩ := h1; obtain ⟨_, e⟩ := nv h2; cases e
  · obtain ⟨_, rfl, _⟩ := h2; cases h1
  · cases h1; cases h2; rfl
  · cases h1; obtain ⟨_, e, _⟩ := h2; cases e
  · cases h1
    cases l' with
    | none => cases h2
    | some l' => obtain ⟨_, e, _⟩ := h2; cases e
  · cases h1; obtain ⟨_, e⟩ := nv h2; cases e
  · obtain ⟨_, rfl, _⟩ := h1; obtain ⟨_, e, _⟩ := h2; cases e
  · obtain ⟨_, rfl, _⟩ := h1; cases h2
  · obtain ⟨_, rfl, h1⟩ := h1
    obtain ⟨_, e, h2⟩ := h2
    cases e
    rw [BitVec.eq_of_toInt_eq (intLit_inj h1 h2)]
  · obtain ⟨_, rfl, _⟩ := h1
    cases l' with
    | none => cases h2
    | some l' => obtain ⟨_, e, _⟩ := h2; cases e
  · obtain ⟨_, rfl, _⟩ := h1; obtain ⟨_, e⟩ := nv h2; cases e
  · cases l with
    | none => cases h1; obtain ⟨_, e, _⟩ := h2; cases e
    | some l => obtain ⟨_, rfl, _⟩ := h1; obtain ⟨_, e, _⟩ := h2; cases e
  · cases l with
    | none => cases h1; cases h2
    | some l => obtain ⟨_, rfl, _⟩ := h1; cases h2
  · cases l with
    | none => cases h1; obtain ⟨_, e, _⟩ := h2; cases e
    | some l => obtain ⟨_, rfl, _⟩ := h1; obtain ⟨_, e, _⟩ := h2; cases e
  · cases l with
    | none =>
      cases h1
      cases l' with
      | none => rfl
      | some l' => obtain ⟨_, e, _⟩ := h2; cases e
    | some l =>
      obtain ⟨_, rfl, h1⟩ := h1
      cases l' with
      | none => cases h2
      | some l' =>
        obtain ⟨_, e, h2⟩ := h2
        cases e
        rw [showsStrs_inj (hf l rfl) (hg l' rfl) h1 h2]
  · obtain ⟨_, rfl⟩ := nv h2
    cases l with
    | none => cases h1
    | some l => obtain ⟨_, e, _⟩ := h1; cases e
  · obtain ⟨_, rfl⟩ := nv h1; obtain ⟨_, e, _⟩ := h2; cases e
  · obtain ⟨_, rfl⟩ := nv h1; cases h2
  · obtain ⟨_, rfl⟩ := nv h1; obtain ⟨_, e, _⟩ := h2; cases e
  · obtain ⟨_, rfl⟩ := nv h1
    cases l' with
    | none => cases h2
    | some l => obtain ⟨_, e, _⟩ := h2; cases e
  · obtain ⟨_, _, _, h1⟩ := h1
    obtain ⟨_, _, _, h2⟩ := h2
    simp only [bareField, showsValue_inj hl hf.1 hg.1 hf.2 hg.2 h1 h2]

theorem showsConfig_inj {env : JEnv} (hl : env.Lawful) {h h' : Heap} : ∀ {fs gs : List (Bytes × StructField)} {js : List (Bytes × Json)}, (∀ f ∈ fs, FieldClean f.2) → (∀ f ∈ gs, FieldClean f.2) →
    Gen.Rel2 (fun f (j : Bytes × Json) => j.1 = f.1 ∧ ShowsField env h f.2 j.2) fs js → Gen.Rel2 (fun f (j : Bytes × Json) => j.1 = f.1 ∧ ShowsField env h' f.2 j.2) gs js → fs.map (fun f => bareField f.2) = gs.map fun f => bareField f.2
  | _, _, _, _, _, .nil, .nil => rfl
  | _, _, _, hf, hg, .cons a b, .cons a' b' => by
    simp only [List.map_cons]
    rw [showsField_inj hl (hf _ (by simp)) (hg _ (by simp)) a.2 a'.2, showsConfig_inj hl (fun f h => hf f (by simp [h])) (fun f h => hg f (by simp [h])) b b']

theorem fields_clean {h : Heap} {p : PConfig} (he : p.Encodable h) (hu : p.Utf8) : ∀ f ∈ p.fields, FieldClean f.2 := by
  cases p <;> simp_all [PConfig.fields, PConfig.Encodable, PConfig.Utf8, FieldClean]

theorem string_mono {env : JEnv} {h : Heap} {p : PConfig} {n n' : Nat} (hn : n ≤ n') {s : Bytes} (e : p.string env h n = some s) : p.string env h n' = some s := by
  have hm := encConfig_mono env h p.fields hn
  unfold PConfig.string at e ⊢
  generalize encMembers (p.fields.map fun f => (quoted f.1, encField env h n f.2)) = r at e hm
  cases r with
  | fuel => cases e
  | error => rw [hm (by simp)]; exact e
  | ok t => rw [hm (by simp)]; exact e

/-- **C84.** Two processors with the same text are of the same kind and have the same options, except for what is inside a configured array or object (provided that the options are valid UTF-8 and were shown). -/
theorem processor_string_determines {env : JEnv} (hl : env.Lawful) {h h' : Heap} {p q : PConfig} (hp : p.Finite h) (hq : q.Finite h') (ep : p.Encodable h) (eq : q.Encodable h') (up : p.Utf8) (uq : q.Utf8)
    {n m : Nat} {s : Bytes} (e1 : p.string env h n = some s) (e2 : q.string env h' m = some s) : p.leaves = q.leaves := by
  obtain ⟨pn, pc, he, _⟩ := processor_string hl hp
  obtain ⟨qn, qc, he', _⟩ := processor_string hl hq
  obtain ⟨N, js, t, a1, a2, a3, _⟩ := he ep
  obtain ⟨M, js', t', b1, b2, b3, _⟩ := he' eq
  have c1 := string_mono (Nat.le_max_left n N) e1
  rw [a1 _ (Nat.le_max_right n N)] at c1
  have c2 := string_mono (Nat.le_max_left m M) e2
  rw [b1 _ (Nat.le_max_right m M), ← c1] at c2
  have nd : ∀ {p : PConfig} {n : Bytes}, p.Called n → (61 : UInt8) ∉ n := by intro p n h; cases p <;> simp only [PConfig.Called] at h <;> subst h <;> decide
  simp only [Option.some.injEq, List.append_assoc, List.singleton_append] at c2
  obtain ⟨en, et⟩ := split_unique (nd qc) (nd pc) c2
  have et := (List.append_inj' et rfl).1
  subst et
  have hj := document_unique (bs := t') (j := .obj js) (j' := .obj js') ⟨[], t', [], by simp, ws_nil, ws_nil, a2⟩ ⟨[], t', [], by simp, ws_nil, ws_nil, b2⟩
  cases hj
  unfold ShowsConfig at a3 b3
  rw [← fields_options] at a3 b3
  have hf := showsConfig_inj hl (fields_clean ep up) (fields_clean eq uq) a3 b3
  subst en
  cases p <;> cases q <;> first
    | (exfalso; simp only [PConfig.Called] at pc qc; rw [pc] at qc; revert qc; decide)
    | (simp only [PConfig.fields, List.map_cons, List.map_nil, bareField, List.cons.injEq, StructField.str.injEq, StructField.bool.injEq, StructField.int16.injEq, StructField.strs.injEq, StructField.value.injEq, and_true] at hf
       try simp only [bare] at hf
       simp only [PConfig.leaves, hf])

/-! ## Samples -/

/-- An object `{"<": "<"}` as a configured value: the name at its top is shown as it is, the text inside is escaped for HTML. -/
def shownHeap : Heap := [.cell { string := lit "<", type := .string }, .map [(lit "<", some 0)]]
def shownConfig : PConfig := .set [] false false (lit "t") { object := some 1, type := .object }

theorem shown_sample : shownConfig.string bitsEnv shownHeap 5 =
    some (lit "set={\"CopyFrom\":\"\",\"IgnoreFailure\":false,\"IgnoreMissing\":false,\"TargetField\":\"t\",\"Value\":{\"Integer\":0,\"UnsignedInteger\":0,\"Float\":0,\"Timestamp\":\"1970-01-01T00:00:00Z\",\"String\":\"\",\"Array\":null,\"Object\":{\"<\":\"\\u003c\"},\"Bool\":false,\"Type\":5}}\n") := by decide +kernel

/-- A value that is NaN (its type does not matter): nothing is shown. -/
def nanConfig : PConfig := .set [] false false (lit "t") { float := 0x7FF8000000000000#64, string := lit "x", type := .string }

theorem nan_sample : nanConfig.string bitsEnv [] 5 = some (lit "set=") := by decide +kernel

theorem shown_parts : Parts shownHeap { object := some 1, type := .object } none (some [(lit "<", .scalar (.str (lit "<")))]) where
  arr := .inl ⟨rfl, rfl⟩
  obj := .inr ⟨1, _, _, rfl, rfl, rfl, rfl, rfl, trivial⟩

/-- The hypotheses are met by the object above. -/
theorem shown_finite : shownConfig.Finite shownHeap ∧ shownConfig.Encodable shownHeap ∧ shownConfig.Utf8 := by
  refine ⟨⟨_, _, shown_parts⟩, ⟨by decide, fun a o hp => ?_⟩, ?_⟩
  · obtain ⟨rfl, rfl⟩ := parts_unique hp shown_parts
    refine ⟨by simp, fun es he => ?_⟩
    cases he
    exact ⟨⟨trivial, trivial⟩, by decide⟩
  · exact ⟨⟨[], rfl⟩, ⟨['t'], by decide⟩, ⟨[], rfl⟩⟩

theorem nan_finite : nanConfig.Finite [] ∧ ¬ nanConfig.Encodable [] := by
  refine ⟨⟨none, none, .inl ⟨rfl, rfl⟩, .inl ⟨rfl, rfl⟩⟩, fun h => ?_⟩
  have := h.1
  revert this
  decide

/-- A list of fields, one with an angle bracket (not escaped), one with a quote and a line feed. -/
theorem string_sample : (PConfig.remove (some [lit "a<b", lit "c\"\n"]) true).string bitsEnv [] 0 =
    some (lit "remove={\"Fields\":[\"a<b\",\"c\\\"\\n\"],\"IgnoreMissing\":true}\n") := by decide +kernel

end Sawmill
