import Verif.Spec.JsonGet
import Verif.Lemmas.JsonFun
import Verif.Lemmas.HeapReads
import Verif.Props.Json
import Verif.Props.Path
/-!
# C109: the JSON of an event and what `Get` finds
-/

namespace Sawmill
open Rfc Spec

/-! ## Objects with repeated names -/

theorem lastAt_cons {e : Bytes × Json} {es : List (Bytes × Json)} {k : Bytes} {j : Json} : LastAt (e :: es) k j ↔ LastAt es k j ∨ (e = (k, j) ∧ ∀ x ∈ es, x.1 ≠ k) := by
  constructor
  · rintro ⟨pre, post, he, hp⟩
    cases pre with
    | nil => simp only [List.nil_append, List.cons.injEq] at he; exact .inr ⟨he.1, he.2 ▸ hp⟩
    | cons x pre => simp only [List.cons_append, List.cons.injEq] at he; exact .inl ⟨pre, post, he.2, hp⟩
  · rintro (⟨pre, post, rfl, hp⟩ | ⟨rfl, hp⟩)
    · exact ⟨e :: pre, post, rfl, hp⟩
    · exact ⟨[], es, rfl, hp⟩

theorem lastAt_mem {es : List (Bytes × Json)} {k : Bytes} {j : Json} (h : LastAt es k j) : (k, j) ∈ es := by
  obtain ⟨pre, post, rfl, _⟩ := h; simp

theorem lastAt_nil {k : Bytes} {j : Json} : ¬ LastAt [] k j := fun h => by simpa using lastAt_mem h

theorem lastAt_unique : ∀ {es : List (Bytes × Json)} {k : Bytes} {j j' : Json}, LastAt es k j → LastAt es k j' → j = j'
  | [], _, _, _, h, _ => absurd h lastAt_nil
  | e :: es, k, j, j', h, h' => by
    rcases lastAt_cons.1 h with h1 | ⟨h1, h2⟩ <;> rcases lastAt_cons.1 h' with h3 | ⟨h3, h4⟩
    · exact lastAt_unique h1 h3
    · exact absurd rfl (h4 _ (lastAt_mem h1))
    · exact absurd rfl (h2 _ (lastAt_mem h3))
    · rw [h1] at h3; simpa using h3

theorem lastAt_total : ∀ (es : List (Bytes × Json)) (k : Bytes), (∃ j, LastAt es k j) ∨ ∀ e ∈ es, e.1 ≠ k
  | [], _ => .inr (by simp)
  | e :: es, k => by
    rcases lastAt_total es k with ⟨j, h⟩ | h
    · exact .inl ⟨j, lastAt_cons.2 (.inl h)⟩
    · by_cases hk : e.1 = k
      · exact .inl ⟨e.2, lastAt_cons.2 (.inr ⟨by rw [← hk], h⟩)⟩
      · refine .inr fun x hx => ?_
        rcases List.mem_cons.1 hx with rfl | hx
        · exact hk
        · exact h x hx

theorem decoded_names {env : JEnv} {k : Bytes} : ∀ {es : List (Bytes × Json)}, (∀ e ∈ es, e.1 ≠ k) → k ∉ (jsonValE env es).map (·.1)
  | [], _ => by simp [jsonValE]
  | (k', j) :: es, h => by
    simp only [jsonValE, List.map_cons, List.mem_cons]
    rintro (h2 | h2)
    · exact h (k', j) (by simp) h2.symm
    · exact decoded_names (fun e he => h e (by simp [he])) h2

theorem lookup_last {env : JEnv} : ∀ {es : List (Bytes × Json)} {k : Bytes} {j : Json}, LastAt es k j → ∀ m : AMap Val, AMap.lookup (AMap.ofEntries (jsonValE env es) m) k = some (jsonVal env j)
  | [], _, _, h, _ => absurd h lastAt_nil
  | (k', j') :: es, k, j, h, m => by
    simp only [jsonValE, AMap.ofEntries_cons]
    rcases lastAt_cons.1 h with h | ⟨h1, h2⟩
    · exact lookup_last h _
    · cases h1
      rw [AMap.lookup_ofEntries_of_not_mem (decoded_names h2)]
      simp

theorem lookup_absent {env : JEnv} {es : List (Bytes × Json)} {k : Bytes} (h : ∀ e ∈ es, e.1 ≠ k) : AMap.lookup (AMap.ofEntries (jsonValE env es) []) k = none := by
  rw [AMap.lookup_ofEntries_of_not_mem (decoded_names h)]
  rfl

theorem jsonAt_cons {es : List (Bytes × Json)} {k k' : Bytes} {ks : List Bytes} {j : Json} : JsonAt es (k :: k' :: ks) j ↔ ∃ fs, LastAt es k (.obj fs) ∧ JsonAt fs (k' :: ks) j := by
  constructor
  · intro h; cases h with | inside h1 h2 => exact ⟨_, h1, h2⟩
  · rintro ⟨fs, h1, h2⟩; exact .inside h1 h2

theorem jsonAt_one {es : List (Bytes × Json)} {k : Bytes} {j : Json} : JsonAt es [k] j ↔ LastAt es k j := by
  constructor
  · intro h; cases h with | here h => exact h
  · exact .here

theorem jsonAt_nil {es : List (Bytes × Json)} {j : Json} : ¬ JsonAt es [] j := fun h => by cases h

theorem nullBefore_one {es : List (Bytes × Json)} {k : Bytes} : ¬ NullBefore es [k] := by
  rintro ⟨p, q, h1, h2, h3⟩
  cases p with
  | nil => exact jsonAt_nil h3
  | cons x p =>
    simp only [List.cons_append, List.cons.injEq] at h1
    exact h2 (List.append_eq_nil_iff.1 h1.2.symm).2

theorem nullBefore_cons {es : List (Bytes × Json)} {k k' : Bytes} {ks : List Bytes} : NullBefore es (k :: k' :: ks) ↔ LastAt es k .null ∨ ∃ fs, LastAt es k (.obj fs) ∧ NullBefore fs (k' :: ks) := by
  constructor
  · rintro ⟨p, q, h1, h2, h3⟩
    match p with
    | [] => exact absurd h3 jsonAt_nil
    | [x] =>
      simp only [List.cons_append, List.cons.injEq] at h1
      exact .inl (jsonAt_one.1 (h1.1 ▸ h3))
    | x :: y :: p =>
      simp only [List.cons_append, List.cons.injEq] at h1
      obtain ⟨rfl, rfl, h1⟩ := h1
      obtain ⟨fs, h4, h5⟩ := jsonAt_cons.1 h3
      exact .inr ⟨fs, h4, k' :: p, q, by simp [h1], h2, h5⟩
  · rintro (h | ⟨fs, h, p, q, h1, h2, h3⟩)
    · exact ⟨[k], k' :: ks, rfl, by simp, .here h⟩
    · cases p with
      | nil => exact absurd h3 jsonAt_nil
      | cons x p => exact ⟨k :: x :: p, q, by rw [h1]; rfl, h2, .inside h h3⟩

theorem jsonAt_unique : ∀ {path : List Bytes} {es : List (Bytes × Json)} {j j' : Json}, JsonAt es path j → JsonAt es path j' → j = j'
  | [], _, _, _, h, _ => absurd h jsonAt_nil
  | [_], _, _, _, h, h' => lastAt_unique (jsonAt_one.1 h) (jsonAt_one.1 h')
  | _ :: k' :: ks, _, _, _, h, h' => by
    obtain ⟨fs, a1, a2⟩ := jsonAt_cons.1 h
    obtain ⟨fs', b1, b2⟩ := jsonAt_cons.1 h'
    cases lastAt_unique a1 b1
    exact jsonAt_unique a2 b2

theorem jsonAt_not_below_null : ∀ {path : List Bytes} {es : List (Bytes × Json)} {j : Json}, JsonAt es path j → ¬ NullBefore es path
  | [], _, _, h, _ => jsonAt_nil h
  | [_], _, _, _, h => nullBefore_one h
  | _ :: k' :: ks, _, _, h, hb => by
    obtain ⟨fs, a1, a2⟩ := jsonAt_cons.1 h
    rcases nullBefore_cons.1 hb with h1 | ⟨fs', b1, b2⟩
    · cases lastAt_unique a1 h1
    · cases lastAt_unique a1 b1
      exact jsonAt_not_below_null a2 b2

/-! ## Decoding -/

/-- The contents that are decoded from a document, at a path. -/
inductive DecodedAt (env : JEnv) (es : List (Bytes × Json)) (path : List Bytes) : Res Val → Prop where
  | below : NullBefore es path → DecodedAt env es path .panic
  | found {j : Json} : JsonAt es path j → DecodedAt env es path (.ok (jsonVal env j))
  | absent : ¬ NullBefore es path → (∀ j, ¬ JsonAt es path j) → DecodedAt env es path (.ok .nilp)

theorem get_decoded (env : JEnv) : ∀ (path : List Bytes), path ≠ [] → ∀ es : List (Bytes × Json), DecodedAt env es path (Spec.get (AMap.ofEntries (jsonValE env es) []) path)
  | [], h, _ => absurd rfl h
  | [k], _, es => by
    simp only [Spec.get]
    rcases lastAt_total es k with ⟨j, hj⟩ | hno
    · rw [lookup_last hj]; exact .found (.here hj)
    · rw [lookup_absent hno]; exact .absent nullBefore_one fun j hj => hno _ (lastAt_mem (jsonAt_one.1 hj)) rfl
  | k :: k' :: ks, _, es => by
    simp only [Spec.get]
    have leaf : ∀ j, LastAt es k j → j ≠ .null → (∀ fs, j ≠ .obj fs) → DecodedAt env es (k :: k' :: ks) (.ok .nilp) := by
      intro j hj h1 h2
      refine .absent ?_ ?_
      · rw [nullBefore_cons]
        rintro (h | ⟨fs, h, _⟩)
        · exact h1 (lastAt_unique hj h)
        · exact h2 _ (lastAt_unique hj h)
      · intro j' hj'
        obtain ⟨fs, h, _⟩ := jsonAt_cons.1 hj'
        exact h2 _ (lastAt_unique hj h)
    rcases lastAt_total es k with ⟨j, hj⟩ | hno
    · rw [lookup_last hj]
      match j, hj with
      | .null, hj => exact .below (nullBefore_cons.2 (.inl hj))
      | .bool _, hj => exact leaf _ hj (by simp) (by simp)
      | .num _, hj => exact leaf _ hj (by simp) (by simp)
      | .str _, hj => exact leaf _ hj (by simp) (by simp)
      | .arr _, hj => exact leaf _ hj (by simp) (by simp)
      | .obj fs, hj =>
        simp only [jsonVal]
        generalize hx : Spec.get (AMap.ofEntries (jsonValE env fs) []) (k' :: ks) = r
        have hd := get_decoded env (k' :: ks) (by simp) fs
        rw [hx] at hd
        clear hx
        cases hd with
        | below h => exact .below (nullBefore_cons.2 (.inr ⟨fs, hj, h⟩))
        | found h => exact .found (.inside hj h)
        | absent h1 h2 =>
          refine .absent ?_ ?_
          · rw [nullBefore_cons]
            rintro (h | ⟨fs', h, h'⟩)
            · cases lastAt_unique hj h
            · cases lastAt_unique hj h; exact h1 h'
          · intro j' hj'
            obtain ⟨fs', h, h'⟩ := jsonAt_cons.1 hj'
            cases lastAt_unique hj h; exact h2 _ h'
    · rw [lookup_absent hno]
      refine .absent ?_ ?_
      · rw [nullBefore_cons]
        rintro (h | ⟨fs, h, _⟩) <;> exact hno _ (lastAt_mem h) rfl
      · intro j' hj'
        obtain ⟨fs, h, _⟩ := jsonAt_cons.1 hj'
        exact hno _ (lastAt_mem h) rfl

/-- Reading in an event, with any sharing. -/
theorem apiGet_holds {h : Heap} {e : Event} {es : AMap Val} (hh : Holds h e (some es)) {key : Bytes} (hk : components key ≠ []) :
    match Spec.get es (components key) with
    | .panic => apiGet h e key = .panic
    | .ok v => ∃ p, apiGet h e key = .ok (h, p) ∧ Reads h p v := by
  obtain ⟨m, ps, rfl, hm, hr⟩ := hh
  have hg := getLoop_reads (components key) hk hm hr
  unfold apiGet
  rw [keyToPath_eq_components]
  cases hp : components key with
  | nil => exact absurd hp hk
  | cons k ks =>
    rw [hp] at hg
    by_cases he : ps = []
    · subst he
      have hes : es = [] := (readsE_ne hr).1 rfl
      subst hes
      rw [get_empty (by simp [mapOf, hm])]
      have : Spec.get [] (k :: ks) = .ok .nilp := by cases ks <;> simp [Spec.get]
      rw [this]
      exact ⟨none, rfl, by simp [Reads]⟩
    · have e1 : get h (some m) (k :: ks) = (getLoop h (some m) (k :: ks)).map fun p => (h, p) := by
        simp only [get, mapOf, hm]
        rw [if_neg (by simpa using he)]
      rw [e1]
      cases hs : Spec.get es (k :: ks) with
      | panic => simp only [hs] at hg ⊢; simp [hg, Res.map]
      | ok v =>
        simp only [hs] at hg ⊢
        obtain ⟨p, h1, h2⟩ := hg
        exact ⟨p, by simp [h1, Res.map], h2⟩

/-- **C109**, decoding. After decoding an object, `Get` finds at a path what the document has there: a value that is what the document's part means; nil if the document has nothing there, or `null`; and it panics exactly if a proper part of
the path leads to a `null`. -/
theorem json_get_decoded (env : JEnv) {bs : Bytes} {es : List (Bytes × Json)} (hd : Document (.obj es) bs) {h h' : Heap} {e : Event} (hu : unmarshalEvent env bs h = some (h', e)) {key : Bytes} (hk : components key ≠ []) :
    (NullBefore es (components key) ↔ apiGet h' e key = .panic) ∧
    (∀ j, JsonAt es (components key) j → ∃ p, apiGet h' e key = .ok (h', p) ∧ Reads h' p (jsonVal env j)) ∧
    (¬ NullBefore es (components key) → (∀ j, ¬ JsonAt es (components key) j) → apiGet h' e key = .ok (h', none)) := by
  obtain ⟨hn, hr⟩ : Rfc.depthE es < 10000 ∧ InRangeE env es := by
    rcases (unmarshalEvent_accepts_iff env bs h).1 ⟨_, hu⟩ with h1 | ⟨es', h1, h2, h3⟩
    · exact absurd (document_unique hd h1) (by simp)
    · cases document_unique hd h1; exact ⟨h2, h3⟩
  obtain ⟨h1, f, h2, h3, h4, -⟩ := unmarshalEvent_object env hd hn hr h
  rw [hu] at h2
  cases h2
  have hg := apiGet_holds (h4 ▸ h3.holds) hk
  have hx := get_decoded env (components key) hk es
  cases hs : Spec.get (AMap.ofEntries (jsonValE env es) []) (components key) with
  | panic =>
    rw [hs] at hx hg
    simp only at hg
    cases hx with
    | below hb => exact ⟨⟨fun _ => hg, fun _ => hb⟩, fun j hj => absurd hb (jsonAt_not_below_null hj), fun hb' => absurd hb hb'⟩
  | ok v =>
    rw [hs] at hx hg
    simp only at hg
    obtain ⟨p, g1, g2⟩ := hg
    generalize hr : Res.ok v = r at hx
    cases hx with
    | below hb => cases hr
    | found hj =>
      cases hr
      refine ⟨⟨fun hb => absurd hb (jsonAt_not_below_null hj), fun hb => ?_⟩, fun j' hj' => ?_, fun _ hno => absurd hj (hno _)⟩
      · rw [g1] at hb; cases hb
      · cases jsonAt_unique hj hj'; exact ⟨p, g1, g2⟩
    | absent hb hno =>
      cases hr
      refine ⟨⟨fun hb' => absurd hb' hb, fun hb' => ?_⟩, fun j hj => absurd hj (hno j), fun _ _ => ?_⟩
      · rw [g1] at hb'; cases hb'
      · rw [g1, show p = none from g2]

/-! ## Encoding -/

theorem says_names {env : JEnv} : ∀ {es : List (Bytes × Val)} {js : List (Bytes × Json)}, SaysE env es js → Val.ValidNamesE es → js.map (·.1) = es.map (·.1)
  | [], js, h, _ => by simp only [SaysE] at h; subst h; rfl
  | (k, v) :: es, js, h, hv => by
    simp only [SaysE] at h
    obtain ⟨k', j, r, rfl, h1, h2, h3⟩ := h
    simp only [Val.ValidNamesE] at hv
    simp only [List.map_cons, says_names h3 hv.2.2, h1.unique (.of_valid hv.1)]

theorem lastAt_once {js : List (Bytes × Json)} {k : Bytes} {j : Json} (hn : (js.map (·.1)).Nodup) (h : (k, j) ∈ js) : LastAt js k j := by
  obtain ⟨pre, post, rfl⟩ := List.append_of_mem h
  refine ⟨pre, post, rfl, fun e he hk => ?_⟩
  simp only [List.map_append, List.map_cons, List.nodup_append, List.nodup_cons] at hn
  exact hn.2.1.1 (hk ▸ List.mem_map.2 ⟨e, he, rfl⟩)

/-- The field of a name, and what the encoded object has for that name. -/
theorem says_lookup {env : JEnv} {k : Bytes} : ∀ {es : List (Bytes × Val)} {js : List (Bytes × Json)}, SaysE env es js → Val.ValidNamesE es →
    (∀ v, AMap.lookup es k = some v → ∃ j, (k, j) ∈ js ∧ Says env v j) ∧ (AMap.lookup es k = none → ∀ e ∈ js, e.1 ≠ k)
  | [], js, h, _ => by simp only [SaysE] at h; subst h; simp
  | (k', v) :: es, js, h, hv => by
    simp only [SaysE] at h
    obtain ⟨k2, j, r, rfl, h1, h2, h3⟩ := h
    simp only [Val.ValidNamesE] at hv
    cases h1.unique (.of_valid hv.1)
    obtain ⟨i1, i2⟩ := says_lookup (k := k) h3 hv.2.2
    simp only [AMap.lookup]
    by_cases hk : k' = k
    · subst hk
      simp only [if_true, Option.some.injEq, reduceCtorEq, false_implies, and_true]
      rintro _ rfl
      exact ⟨j, by simp, h2⟩
    · simp only [if_neg hk]
      refine ⟨fun w hw => ?_, fun hn e he => ?_⟩
      · obtain ⟨j', a, b⟩ := i1 w hw; exact ⟨j', by simp [a], b⟩
      · rcases List.mem_cons.1 he with rfl | he
        · exact hk
        · exact i2 hn e he

theorem validNames_lookup {es : List (Bytes × Val)} {k : Bytes} {v : Val} : Val.ValidNamesE es → AMap.lookup es k = some v → v.ValidNames := by
  induction es with
  | nil => simp
  | cons e es ih =>
    obtain ⟨k', v'⟩ := e
    simp only [Val.ValidNamesE, AMap.lookup]
    rintro ⟨-, h1, h2⟩
    split
    · rintro ⟨⟩; exact h1
    · exact ih h2

/-- What is at a path of the contents, and what the encoded object has there. -/
inductive EncodedAt (env : JEnv) (js : List (Bytes × Json)) (path : List Bytes) : Res Val → Prop where
  | below : NullBefore js path → EncodedAt env js path .panic
  | there {v : Val} {j : Json} : JsonAt js path j → Says env v j → EncodedAt env js path (.ok v)
  | absent : (∀ j, ¬ JsonAt js path j) → EncodedAt env js path (.ok .nilp)

theorem get_encoded {env : JEnv} : ∀ (path : List Bytes), path ≠ [] → ∀ {es : AMap Val} {js : List (Bytes × Json)}, SaysE env es js → Val.ValidNamesE es → AMap.Sorted es → Val.CanonE es →
    EncodedAt env js path (Spec.get es path)
  | [], h, _, _, _, _, _, _ => absurd rfl h
  | [k], _, es, js, hs, hv, ho, _ => by
    have hn : (js.map (·.1)).Nodup := says_names hs hv ▸ AMap.sorted_nodup ho
    obtain ⟨i1, i2⟩ := says_lookup (k := k) hs hv
    simp only [Spec.get]
    cases hl : AMap.lookup es k with
    | none => exact .absent fun j hj => i2 hl _ (lastAt_mem (jsonAt_one.1 hj)) rfl
    | some v =>
      obtain ⟨j, a, b⟩ := i1 v hl
      exact .there (.here (lastAt_once hn a)) b
  | k :: k' :: ks, _, es, js, hs, hv, ho, hc => by
    have hn : (js.map (·.1)).Nodup := says_names hs hv ▸ AMap.sorted_nodup ho
    obtain ⟨i1, i2⟩ := says_lookup (k := k) hs hv
    simp only [Spec.get]
    cases hl : AMap.lookup es k with
    | none =>
      refine .absent fun j hj => ?_
      obtain ⟨fs, a, _⟩ := jsonAt_cons.1 hj
      exact i2 hl _ (lastAt_mem a) rfl
    | some v =>
      obtain ⟨j, a, b⟩ := i1 v hl
      have hj := lastAt_once hn a
      have leaf : (∀ fs, j ≠ .obj fs) → EncodedAt env js (k :: k' :: ks) (.ok .nilp) := by
        intro hno
        refine .absent fun j' hj' => ?_
        obtain ⟨fs, c, _⟩ := jsonAt_cons.1 hj'
        exact hno _ (lastAt_unique hj c)
      match v, hl, b with
      | .nilp, _, b =>
        simp only [Says] at b; subst b
        exact .below (nullBefore_cons.2 (.inl hj))
      | .obj fs, hl, b =>
        simp only [Says] at b
        obtain ⟨gs, rfl, hb⟩ := b
        have hv' := validNames_lookup hv hl
        have hc' := canonE_iff.1 hc _ (AMap.mem_of_lookup hl)
        simp only [Val.ValidNames] at hv'
        simp only [Val.Canon] at hc'
        have hd := get_encoded (k' :: ks) (by simp) hb hv' hc'.1 hc'.2
        show EncodedAt env js (k :: k' :: ks) (Spec.get fs (k' :: ks))
        generalize Spec.get fs (k' :: ks) = r at hd ⊢
        cases hd with
        | below h => exact .below (nullBefore_cons.2 (.inr ⟨gs, hj, h⟩))
        | there h1 h2 => exact .there (.inside hj h1) h2
        | absent h =>
          refine .absent fun j' hj' => ?_
          obtain ⟨fs', c, d⟩ := jsonAt_cons.1 hj'
          cases lastAt_unique hj c
          exact h _ d
      | .scalar .null, _, b => simp only [Says] at b; subst b; exact leaf (by simp)
      | .scalar (.bool _), _, b => simp only [Says] at b; subst b; exact leaf (by simp)
      | .scalar (.int _), _, b => simp only [Says] at b; obtain ⟨_, rfl, _⟩ := b; exact leaf (by simp)
      | .scalar (.uint _), _, b => simp only [Says] at b; obtain ⟨_, rfl, _⟩ := b; exact leaf (by simp)
      | .scalar (.float _), _, b => simp only [Says] at b; subst b; exact leaf (by simp)
      | .scalar (.str _), _, b => simp only [Says] at b; obtain ⟨_, rfl, _⟩ := b; exact leaf (by simp)
      | .scalar (.ts _), _, b => simp only [Says] at b; obtain ⟨_, rfl, _⟩ := b; exact leaf (by simp)
      | .arrNil, _, b => simp only [Says] at b; subst b; exact leaf (by simp)
      | .arr _, _, b => simp only [Says] at b; obtain ⟨_, rfl, _⟩ := b; exact leaf (by simp)
      | .objNil, _, b => simp only [Says] at b; subst b; exact leaf (by simp)

/-- **C109**, encoding. The JSON of an event whose names are valid UTF-8 has at a path what `Get` finds there: if `Get` returns a value, then the text has there what that value says in JSON; if `Get` returns nil, the text has nothing there, or
`null`; and where `Get` panics, a proper part of the path leads to a `null` in the text. -/
theorem json_get_encoded {env : JEnv} (hl : env.Lawful) {h : Heap} {e : Event} {es : AMap Val} (hh : Holds h e (some es)) (hs : AMap.Sorted es) (hc : Val.CanonE es) (hv : Val.ValidNamesE es)
    {n : Nat} {bs : Bytes} (hm : marshalEvent env n h e = .ok bs) {js : List (Bytes × Json)} (hd : Document (.obj js) bs) {key : Bytes} (hk : components key ≠ []) :
    (apiGet h e key = .panic ∧ NullBefore js (components key)) ∨
    (apiGet h e key = .ok (h, none) ∧ ∀ j, JsonAt js (components key) j → j = .null) ∨
    ∃ p v j, apiGet h e key = .ok (h, some p) ∧ Reads h (some p) v ∧ JsonAt js (components key) j ∧ Says env v j := by
  rcases marshalEvent_cases hl hh n with ⟨h1, _⟩ | ⟨h1, _⟩ | ⟨out, js', h1, _, _, h4, h5⟩
  · rw [h1] at hm; cases hm
  · rw [h1] at hm; cases hm
  rw [h1] at hm
  cases hm
  cases document_unique hd (document_text h4)
  have hg := apiGet_holds hh hk
  have hx := get_encoded (components key) hk h5 hv hs hc
  generalize hr : Spec.get es (components key) = r at hx hg
  cases hx with
  | below hb => exact .inl ⟨hg, hb⟩
  | absent hno =>
    obtain ⟨p, g1, g2⟩ := hg
    refine .inr (.inl ⟨?_, fun j hj => absurd hj (hno j)⟩)
    rw [g1, show p = none from g2]
  | there hj hsay =>
    obtain ⟨p, g1, g2⟩ := hg
    cases p with
    | some a => exact .inr (.inr ⟨a, _, _, g1, g2, hj, hsay⟩)
    | none =>
      refine .inr (.inl ⟨g1, fun j hj' => ?_⟩)
      cases jsonAt_unique hj hj'
      rename_i v j
      match v, g2, hsay with
      | .nilp, _, hsay => simpa [Says] using hsay
      | .scalar _, g2, _ => simp [Reads, deref] at g2
      | .arrNil, g2, _ => simp [Reads, deref] at g2
      | .arr _, g2, _ => simp [Reads, deref] at g2
      | .objNil, g2, _ => simp [Reads, deref] at g2
      | .obj _, g2, _ => simp [Reads, deref] at g2

/-! ## Examples -/

/-- `{"a":{"b":1,"b":"x"},"n":null}` -/
def getSample : List (Bytes × Json) := [(lit "a", .obj [(lit "b", .num (lit "1")), (lit "b", .str (lit "x"))]), (lit "n", .null)]

/-- C109: in `{"a":{"b":1,"b":"x"},"n":null}` there is "x" at `a.b` (the last `b` counts), nothing at `a.c`, and below `n` `Get` panics. -/
theorem json_get_sample : ∃ (h' : Heap) (e : Event), unmarshalEvent bitsEnv (lit "{\"a\":{\"b\":1,\"b\":\"x\"},\"n\":null}") [] = some (h', e) ∧
    (∃ p, apiGet h' e (lit "a.b") = .ok (h', p) ∧ Reads h' p (.scalar (.str (lit "x")))) ∧ apiGet h' e (lit "a.c") = .ok (h', none) ∧ apiGet h' e (lit "n.x") = .panic ∧ apiGet h' e (lit "n") = .ok (h', none) := by
  have hp : parseDoc [123, 34, 97, 34, 58, 123, 34, 98, 34, 58, 49, 44, 34, 98, 34, 58, 34, 120, 34, 125, 44, 34, 110, 34, 58, 110, 117, 108, 108, 125] =
    some (.obj [([97], .obj [([98], .num [49]), ([98], .str [120])]), ([110], .null)]) := by rfl
  have e1 : lit "{\"a\":{\"b\":1,\"b\":\"x\"},\"n\":null}" = [123, 34, 97, 34, 58, 123, 34, 98, 34, 58, 49, 44, 34, 98, 34, 58, 34, 120, 34, 125, 44, 34, 110, 34, 58, 110, 117, 108, 108, 125] := by decide
  have e2 : getSample = [([97], .obj [([98], .num [49]), ([98], .str [120])]), ([110], .null)] := rfl
  rw [← e1, ← e2] at hp
  have hd := (parseDoc_iff.1 hp).1
  have hn : Rfc.depthE getSample < 10000 := by decide
  have hr : InRangeE bitsEnv getSample := ⟨⟨(by decide +kernel : (bitsEnv.atof (lit "1")).isSome = true), trivial, trivial⟩, trivial, trivial⟩
  obtain ⟨h', f, hu, -⟩ := unmarshalEvent_object bitsEnv hd hn hr []
  have c1 : components (lit "a.b") = [lit "a", lit "b"] := by decide
  have c2 : components (lit "a.c") = [lit "a", lit "c"] := by decide
  have c3 : components (lit "n.x") = [lit "n", lit "x"] := by decide
  have c4 : components (lit "n") = [lit "n"] := by decide
  have l1 : LastAt getSample (lit "a") (.obj [(lit "b", .num (lit "1")), (lit "b", .str (lit "x"))]) := ⟨[], _, rfl, by decide⟩
  have l2 : LastAt getSample (lit "n") .null := ⟨[_], [], rfl, by simp⟩
  have l3 : LastAt [(lit "b", Json.num (lit "1")), (lit "b", .str (lit "x"))] (lit "b") (.str (lit "x")) := ⟨[_], [], rfl, by simp⟩
  refine ⟨h', f.event, hu, ?_, ?_, ?_, ?_⟩
  · exact (json_get_decoded bitsEnv hd hu (by rw [c1]; simp)).2.1 (.str (lit "x")) (by rw [c1]; exact .inside l1 (.here l3))
  · refine (json_get_decoded bitsEnv hd hu (by rw [c2]; simp)).2.2 ?_ ?_
    · rw [c2, nullBefore_cons]
      rintro (h | ⟨fs, _, h⟩)
      · cases lastAt_unique l1 h
      · exact nullBefore_one h
    · rw [c2]
      intro j hj
      obtain ⟨fs, h1, h2⟩ := jsonAt_cons.1 hj
      cases lastAt_unique l1 h1
      have := lastAt_mem (jsonAt_one.1 h2)
      simp only [List.mem_cons, Prod.mk.injEq, List.not_mem_nil, or_false] at this
      rcases this with h | h <;> exact absurd h.1 (by decide)
  · exact (json_get_decoded bitsEnv hd hu (by rw [c3]; simp)).1.1 (by rw [c3]; exact nullBefore_cons.2 (.inl l2))
  · obtain ⟨p, h1, h2⟩ := (json_get_decoded bitsEnv hd hu (by rw [c4]; simp)).2.1 .null (by rw [c4]; exact .here l2)
    rw [h1, show p = none from h2]

/-- C109: the event `{"a": {"b": "x"}, …}` in JSON, at `a.b`: what the value there says, the string "x". -/
theorem json_get_encoded_sample : ∃ (bs : Bytes) (js : List (Bytes × Json)), marshalEvent bitsEnv 5 sampleHeap.1 sampleHeap.2.1.event = .ok bs ∧ Document (.obj js) bs ∧ JsonAt js [lit "a", lit "b"] (.str (lit "x")) ∧
    ∃ p, apiGet sampleHeap.1 sampleHeap.2.1.event (lit "a.b") = .ok (sampleHeap.1, some p) ∧ Reads sampleHeap.1 (some p) (.scalar (.str (lit "x"))) := by
  obtain ⟨ho, -, -, -, he⟩ := sample_owns
  have hh : Holds sampleHeap.1 sampleHeap.2.1.event (some sampleFields) := he ▸ ho.holds
  have hg := apiGet_holds hh (key := lit "a.b") (by decide)
  have hs : Spec.get sampleFields (components (lit "a.b")) = .ok (.scalar (.str (lit "x"))) := by rw [show components (lit "a.b") = [lit "a", lit "b"] by decide]; rfl
  rw [hs] at hg
  obtain ⟨p, g1, g2⟩ := hg
  have hv : Val.ValidNamesE sampleFields := ⟨⟨['a'], by decide⟩, ⟨⟨['b'], by decide⟩, trivial, trivial⟩, ⟨['l'], by decide⟩, ⟨trivial, trivial⟩, ⟨['n'], by decide⟩, trivial, trivial⟩
  have hso : AMap.Sorted sampleFields := by decide
  have hc : Val.CanonE sampleFields := ⟨⟨by decide, trivial, trivial⟩, ⟨trivial, trivial⟩, trivial, trivial⟩
  rcases marshalEvent_cases bitsEnv_lawful hh 5 with ⟨_, h1⟩ | ⟨_, h1⟩ | ⟨out, js, h1, _, _, h2, _⟩
  · exact absurd h1 (by decide)
  · exact absurd ⟨⟨⟨trivial, trivial⟩, ⟨trivial, trivial⟩, trivial, trivial⟩, by decide⟩ h1
  · refine ⟨out, js, h1, document_text h2, ?_⟩
    rcases json_get_encoded bitsEnv_lawful hh hso hc hv h1 (document_text h2) (key := lit "a.b") (by decide) with ⟨x, _⟩ | ⟨x, _⟩ | ⟨a, v, j, x, y, z, w⟩
    · rw [g1] at x; cases x
    · rw [g1] at x; cases x; simp [Reads, deref] at g2
    · rw [g1] at x
      cases x
      have := reads_inj _ _ y g2
      subst this
      obtain ⟨s', rfl, hrep⟩ := w
      cases hrep.unique (.of_valid ⟨['x'], by decide⟩)
      have hcomp : components (lit "a.b") = [lit "a", lit "b"] := by decide
      rw [hcomp] at z
      exact ⟨z, a, g1, g2⟩

end Sawmill
