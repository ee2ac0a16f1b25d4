import Verif.Lemmas.JsonInto
import Verif.Lemmas.JsonDoc
import Verif.Props.Json
/-!
# C64. Decoding JSON into a value or an event that is in use
-/

namespace Sawmill
open Spec Rfc

variable {env : JEnv}

/-- The value that a document stands for at the top: `null` is a value of type null. -/
def topVal (env : JEnv) : Json → Val
  | .null => .scalar .null
  | j => jsonVal env j

theorem decodeValue_ok (j : Json) (v : FVal) : (decodeValue env j v).1 = true ↔ InRange env j := by
  cases hj : isNull j with
  | true => cases j <;> simp_all [isNull, decodeValue, InRange]
  | false => rw [decodeValue_slot hj]; exact decodeSlot_ok j v

/-- C64: which texts are accepted, whatever the value held before. -/
theorem value_accepts_iff (env : JEnv) (bs : Bytes) (v : FVal) : (unmarshalValue env bs v).1 = true ↔ ∃ j, Document j bs ∧ depth j ≤ 10000 ∧ InRange env j := by
  unfold unmarshalValue
  cases hp : parseDoc bs with
  | none =>
    simp only [Bool.false_eq_true, false_iff]
    rintro ⟨j, h1, h2, _⟩
    rw [parseDoc_iff.2 ⟨h1, h2⟩] at hp; cases hp
  | some j =>
    simp only [decodeValue_ok]
    have hd := parseDoc_iff.1 hp
    constructor
    · intro h; exact ⟨j, hd.1, hd.2, h⟩
    · rintro ⟨j', h1, h2, h3⟩
      have := parseDoc_iff.2 ⟨h1, h2⟩
      rw [hp] at this
      cases this; exact h3

theorem shown_value {j : Json} {hist : List Json} (hj : InRange env j) (hh : ∀ x ∈ hist, InRange env x) : (decodeValue env j (after env hist)).2.visible = shown env j hist := by
  cases hn : isNull j with
  | false => rw [decodeValue_slot hn]; exact shown_slot j hn hj hist hh
  | true =>
    cases j <;> simp [isNull] at hn
    have hne := after_ne (env := env) hist
    simp only [decodeValue, shown]
    revert hne; cases after env hist <;> simp [FVal.put, FVal.visible]

/-- **C64.** After decoding any sequence of accepted documents into a new value, the value shows what `Spec.shown` says of the last document and the earlier ones. -/
theorem value_history (env : JEnv) (docs : List (Json × Bytes)) (j : Json) (bs : Bytes) (hd : ∀ d ∈ docs ++ [(j, bs)], Document d.1 d.2 ∧ depth d.1 ≤ 10000 ∧ InRange env d.1) :
    (unmarshalValues env (docs.map (·.2) ++ [bs]) .zero).visible = shown env j (docs.map (·.1)) := by
  have key : ∀ (docs : List (Json × Bytes)), (∀ d ∈ docs, Document d.1 d.2 ∧ depth d.1 ≤ 10000 ∧ InRange env d.1) → ∀ v, unmarshalValues env (docs.map (·.2)) v = (docs.map (·.1)).foldl (fun v j => (decodeValue env j v).2) v := by
    intro docs
    induction docs with
    | nil => intro _ v; rfl
    | cons d docs ih =>
      intro h v
      have h1 := h d (by simp)
      have : (unmarshalValue env d.2 v) = decodeValue env d.1 v := by simp only [unmarshalValue, parseDoc_iff.2 ⟨h1.1, h1.2.1⟩]
      simp only [unmarshalValues, List.map_cons, List.foldl_cons, this]
      exact ih (fun x hx => h x (by simp [hx])) _
  have h1 := key (docs ++ [(j, bs)]) hd .zero
  simp only [List.map_append, List.map_cons, List.map_nil] at h1
  rw [h1]
  show (after env (docs.map (·.1) ++ [j])).visible = _
  rw [after_snoc]
  refine shown_value (hd (j, bs) (by simp)).2.2 ?_
  intro x hx
  obtain ⟨d, h2, rfl⟩ := List.mem_map.1 hx
  exact (hd d (by simp [h2])).2.2

/-- C64: a new value shows what the document stands for. -/
theorem shown_fresh {j : Json} (hr : InRange env j) : shown env j [] = topVal env j := by
  rw [← shown_value hr (by simp)]
  cases hn : isNull j with
  | true => cases j <;> simp [isNull] at hn; rfl
  | false =>
    rw [decodeValue_slot hn]
    show (decodeSlot env j FVal.nil.made).2.visible = _
    rw [← (decodeSlot_made hn .nil).1, fresh_slot j hr .nil rfl]
    cases j <;> simp_all [isNull, topVal]

/-! ## Documents without objects -/

mutual
theorem noObject_slot : ∀ (j : Json), NoObject j → InRange env j → ∀ v, (decodeSlot env j v).2.visible = jsonVal env j
  | .null, _, _, v => rfl
  | .bool b, _, _, v => by
    have h := made_ne_nil v
    simp only [decodeSlot, jsonVal]
    revert h; cases v.made <;> simp [FVal.put, FVal.visible]
  | .num t, _, hr, v => by
    have h := made_ne_nil v
    simp only [InRange] at hr
    obtain ⟨f, hf⟩ := Option.isSome_iff_exists.1 hr
    simp only [decodeSlot, jsonVal, hf]
    revert h; cases v.made <;> simp [FVal.put, FVal.visible]
  | .str s, _, _, v => by
    have h := made_ne_nil v
    simp only [decodeSlot, jsonVal]
    revert h; cases v.made <;> simp [FVal.put, FVal.visible]
  | .obj es, hn, _, v => by simp [NoObject] at hn
  | .arr js, hn, hr, v => by
    have h1 := noObject_slots js hn hr v.made.slots
    have h := made_ne_nil v
    have hk := (decodeSlots_ok (env := env) js v.made.slots).2 hr
    simp only [decodeSlot, jsonVal]
    revert h1
    generalize decodeSlots env js v.made.slots = r at hk
    revert h
    cases v.made with
    | nil => simp
    | val =>
      intro _ h1
      simp only [FVal.setArray, hk, if_true, FVal.visible, Bool.false_eq_true, if_false, visibleL_eq_map, List.map_append] at h1 ⊢
      rw [List.take_left' (by simp), h1]
theorem noObject_slots : ∀ (js : List Json), NoObjectL js → InRangeL env js → ∀ ss, FVal.visibleL (decodeSlots env js ss).2.1 = jsonValL env js
  | [], _, _, _ => rfl
  | j :: js, hn, hr, ss => by
    have h1 := noObject_slot j hn.1 hr.1 (ss.headD .nil)
    have h2 := noObject_slots js hn.2 hr.2 ss.tail
    have hk := (decodeSlot_ok (env := env) j (ss.headD .nil)).2 hr.1
    simp only [decodeSlots, hk, if_true, FVal.visibleL, jsonValL, h1, h2]
end

/-- A name that is longer than all in the list. -/
def longName (es : List (Bytes × Json)) : Bytes := List.replicate ((es.map (·.1.length)).sum + 1) 0

theorem longName_not_mem (es : List (Bytes × Json)) : ∀ e ∈ es, e.1 ≠ longName es := by
  intro e he h
  have h1 : e.1.length ≤ (es.map (·.1.length)).sum := by
    clear h
    induction es with
    | nil => simp at he
    | cons x es ih =>
      rcases List.mem_cons.1 he with rfl | h1
      · simp
      · have := ih h1; simp only [List.map_cons, List.sum_cons]; omega
  rw [h, longName, List.length_replicate] at h1
  omega

mutual
/-- A value in use that spoils the document. -/
def spoiler : Json → FVal
  | .obj es => .val .object {} true [] 0 false [(longName es, .nil)]
  | .arr js => .val .array {} false (spoilers js) (spoilers js).length true []
  | _ => .zero
def spoilers : List Json → List FVal
  | [] => []
  | j :: js => spoiler j :: spoilers js
end

theorem spoiler_ne (j : Json) : spoiler j ≠ .nil := by cases j <;> simp [spoiler, FVal.zero]

mutual
theorem spoiled : ∀ (j : Json), InRange env j → (decodeSlot env j (spoiler j)).2.visible = jsonVal env j → NoObject j
  | .null, _, _ => trivial
  | .bool _, _, _ => trivial
  | .num _, _, _ => trivial
  | .str _, _, _ => trivial
  | .obj es, hr, h => by
    exfalso
    have hk := (decodeMap_ok (env := env) es [(longName es, .nil)]).2 hr
    have hm := fresh_map (env := env) es hr [(longName es, .nil)]
    simp only [decodeSlot, spoiler, FVal.made, FVal.entries, FVal.setObject, hk, if_true, FVal.visible, Bool.false_eq_true, if_false, jsonVal, Val.obj.injEq] at h
    rw [hm] at h
    have h1 : ∀ m : AMap Val, AMap.lookup (AMap.ofEntries (jsonValE env es) m) (longName es) = AMap.lookup m (longName es) := by
      have hn : ∀ e ∈ jsonValE env es, e.1 ≠ longName es := by
        have : (jsonValE env es).map (·.1) = es.map (·.1) := by
          clear hk hm h hr
          induction es with
          | nil => rfl
          | cons e es ih => obtain ⟨k, j⟩ := e; simp [jsonValE, ih]
        intro e he h2
        have h3 : e.1 ∈ (jsonValE env es).map (·.1) := List.mem_map.2 ⟨e, he, rfl⟩
        rw [this] at h3
        obtain ⟨e', he', h4⟩ := List.mem_map.1 h3
        exact longName_not_mem es e' he' (h4.trans h2)
      clear hk hm h
      generalize longName es = q at hn
      revert hn
      generalize jsonValE env es = l
      intro hn
      induction l with
      | nil => intro m; rfl
      | cons e l ih =>
        intro m
        rw [AMap.ofEntries_cons, ih (fun x hx => hn x (by simp [hx])), AMap.lookup_insert_of_ne m e.2 (hn e (by simp))]
    have h2 := congrArg (fun m => AMap.lookup m (longName es)) h
    simp only [h1] at h2
    simp [FVal.visibleE, AMap.lookup] at h2
  | .arr js, hr, h => by
    have h1 := spoileds js hr
    have hk := (decodeSlots_ok (env := env) js (spoilers js)).2 hr
    simp only [NoObject]
    refine h1 ?_
    simp only [decodeSlot, spoiler, FVal.made, FVal.slots, FVal.setArray, hk, if_true, FVal.visible, Bool.false_eq_true, if_false, jsonVal, Val.arr.injEq, visibleL_eq_map, List.map_append] at h ⊢
    rwa [List.take_left' (by simp)] at h
theorem spoileds : ∀ (js : List Json), InRangeL env js → FVal.visibleL (decodeSlots env js (spoilers js)).2.1 = jsonValL env js → NoObjectL js
  | [], _, _ => trivial
  | j :: js, hr, h => by
    have hk := (decodeSlot_ok (env := env) j (spoiler j)).2 hr.1
    simp only [decodeSlots, spoilers, List.headD_cons, List.tail_cons, hk, if_true, FVal.visibleL, jsonValL, List.cons.injEq] at h
    exact ⟨spoiled j hr.1 h.1, spoileds js hr.2 h.2⟩
end

/-- **C64.** The documents that always come out exactly, whatever the value held before, are those that contain no object. -/
theorem value_exact_iff {j : Json} (hr : InRange env j) : (∀ v, v ≠ .nil → (decodeValue env j v).2.visible = topVal env j) ↔ NoObject j := by
  cases hn : isNull j with
  | true =>
    cases j <;> simp [isNull] at hn
    simp only [NoObject, iff_true]
    intro v hv
    cases v <;> simp_all [decodeValue, FVal.put, FVal.visible, topVal]
  | false =>
    have ht : topVal env j = jsonVal env j := by cases j <;> simp_all [isNull, topVal]
    simp only [decodeValue_slot hn, ht]
    constructor
    · intro h; exact spoiled j hr (h _ (spoiler_ne j))
    · intro h v _; exact noObject_slot j h hr v

/-! ## Failures -/

def FVal.type : FVal → VType
  | .nil => .null
  | .val t .. => t

def FVal.leaves : FVal → Leaves
  | .nil => {}
  | .val _ l .. => l

/-- C64: if a document is refused, the type and the plain fields are unchanged, and so is what the value shows, unless it is an array and the document is one, or an object and the document is one. -/
theorem value_refused {v : FVal} (hv : v ≠ .nil) {bs : Bytes} (h : (unmarshalValue env bs v).1 = false) :
    (unmarshalValue env bs v).2.type = v.type ∧ (unmarshalValue env bs v).2.leaves = v.leaves ∧
    ((v.type = .array ∧ ∃ js, Document (.arr js) bs) ∨ (v.type = .object ∧ ∃ es, Document (.obj es) bs) ∨ (unmarshalValue env bs v).2.visible = v.visible) := by
  unfold unmarshalValue at h ⊢
  cases hp : parseDoc bs with
  | none => simp
  | some j =>
    have hd := (parseDoc_iff.1 hp).1
    simp only [hp] at h
    simp only
    cases j with
    | null => simp [decodeValue] at h
    | bool b => simp [decodeValue, decodeSlot] at h
    | str s => simp [decodeValue, decodeSlot] at h
    | num t =>
      simp only [decodeValue, decodeSlot] at h ⊢
      cases ha : env.atof t with
      | none => simp [made_of_ne hv]
      | some f => simp [ha] at h
    | arr js =>
      simp only [decodeValue, decodeSlot, made_of_ne hv] at h ⊢
      cases v with
      | nil => simp at hv
      | val t l an ss n on es =>
        simp only [FVal.setArray, h, Bool.false_eq_true, if_false, FVal.type, FVal.leaves, true_and]
        by_cases ht : t = .array
        · exact .inl ⟨ht, js, hd⟩
        · refine .inr (.inr ?_)
          cases t <;> simp_all [FVal.visible]
    | obj fs =>
      simp only [decodeValue, decodeSlot, made_of_ne hv] at h ⊢
      cases v with
      | nil => simp at hv
      | val t l an ss n on es =>
        simp only [FVal.setObject, h, Bool.false_eq_true, if_false, FVal.type, FVal.leaves, true_and]
        by_cases ht : t = .object
        · exact .inr (.inl ⟨ht, fs, hd⟩)
        · refine .inr (.inr ?_)
          cases t <;> simp_all [FVal.visible]

/-- The last of the documents for which `f` gives something. -/
def lastDoc {α : Type} (f : Json → Option α) (js : List Json) : Option α := (js.filterMap f).getLast?

theorem lastDoc_snoc {α : Type} (f : Json → Option α) (js : List Json) (j : Json) : lastDoc f (js ++ [j]) = (f j).or (lastDoc f js) := by
  unfold lastDoc
  rw [List.filterMap_append]
  cases h : f j <;> simp [h, List.getLast?_append]

theorem decodeValue_leaves (j : Json) (hr : InRange env j) {v : FVal} (hv : v ≠ .nil) : (decodeValue env j v).2 ≠ .nil ∧ (decodeValue env j v).2.leaves =
    { v.leaves with
      string := (match j with | .str s => some s | _ => none).getD v.leaves.string,
      bool := (match j with | .bool b => some b | _ => none).getD v.leaves.bool,
      float := (match j with | .num t => env.atof t | _ => none).getD v.leaves.float } := by
  cases v with
  | nil => exact absurd rfl hv
  | val t l an ss n on es =>
    cases j with
    | num u =>
      cases ha : env.atof u with
      | none => simp [InRange, ha] at hr
      | some f => simp [decodeValue, decodeSlot, ha, FVal.made, FVal.put, FVal.leaves]
    | _ => simp [decodeValue, decodeSlot, FVal.made, FVal.put, FVal.setArray, FVal.setObject, FVal.leaves]

/-- C64: the plain fields of a value after a sequence of accepted documents: those for text, truth and floats have what the last document of that kind had, whatever the type is now; the others are never set. -/
theorem value_fields (env : JEnv) (docs : List (Json × Bytes)) (hd : ∀ d ∈ docs, Document d.1 d.2 ∧ depth d.1 ≤ 10000 ∧ InRange env d.1) :
    ((unmarshalValues env (docs.map (·.2)) .zero).leaves.string = (lastDoc (fun j => match j with | .str s => some s | _ => none) (docs.map (·.1))).getD []) ∧
    ((unmarshalValues env (docs.map (·.2)) .zero).leaves.bool = (lastDoc (fun j => match j with | .bool b => some b | _ => none) (docs.map (·.1))).getD false) ∧
    ((unmarshalValues env (docs.map (·.2)) .zero).leaves.float = (lastDoc (fun j => match j with | .num t => env.atof t | _ => none) (docs.map (·.1))).getD 0#64) ∧
    ((unmarshalValues env (docs.map (·.2)) .zero).leaves.integer = 0#64) ∧ ((unmarshalValues env (docs.map (·.2)) .zero).leaves.unsigned = 0#64) ∧ ((unmarshalValues env (docs.map (·.2)) .zero).leaves.timestamp = 0#64) := by
  have key : ∀ (l : List (Json × Bytes)), (∀ d ∈ l, Document d.1 d.2 ∧ depth d.1 ≤ 10000 ∧ InRange env d.1) → unmarshalValues env (l.reverse.map (·.2)) .zero ≠ .nil ∧
      (unmarshalValues env (l.reverse.map (·.2)) .zero).leaves = ⟨0#64, 0#64, (lastDoc (fun j => match j with | .num t => env.atof t | _ => none) (l.reverse.map (·.1))).getD 0#64, 0#64,
        (lastDoc (fun j => match j with | .str s => some s | _ => none) (l.reverse.map (·.1))).getD [], (lastDoc (fun j => match j with | .bool b => some b | _ => none) (l.reverse.map (·.1))).getD false⟩ := by
    intro l
    induction l with
    | nil => intro _; exact ⟨by simp [unmarshalValues, FVal.zero], rfl⟩
    | cons d l ih =>
      intro hl
      obtain ⟨h1, h2⟩ := ih fun x hx => hl x (List.mem_cons_of_mem _ hx)
      obtain ⟨hd1, hd2, hd3⟩ := hl d (List.mem_cons_self ..)
      have e : unmarshalValues env ((d :: l).reverse.map (·.2)) .zero = (decodeValue env d.1 (unmarshalValues env (l.reverse.map (·.2)) .zero)).2 := by
        simp only [unmarshalValues, List.reverse_cons, List.map_append, List.map_cons, List.map_nil, List.foldl_append, List.foldl_cons, List.foldl_nil]
        simp only [unmarshalValue, parseDoc_iff.2 ⟨hd1, hd2⟩]
      obtain ⟨h3, h4⟩ := decodeValue_leaves d.1 hd3 h1
      rw [e]
      refine ⟨h3, ?_⟩
      rw [h4, h2]
      simp only [List.reverse_cons, List.map_append, List.map_cons, List.map_nil, lastDoc_snoc]
      cases d.1 <;> try rfl
      rename_i u
      show Leaves.mk _ _ ((env.atof u).getD _) _ _ _ = Leaves.mk _ _ (((env.atof u).or _).getD _) _ _ _
      cases env.atof u <;> rfl
  have := (key docs.reverse (fun d h => hd d (List.mem_reverse.1 h))).2
  rw [List.reverse_reverse] at this
  rw [this]
  exact ⟨rfl, rfl, rfl, rfl, rfl, rfl⟩
/-! ## Events -/

/-- **C64.** An event, in contrast, has the contents of the last accepted text, and if none is accepted it is unchanged. -/
theorem event_history (env : JEnv) (docs : List Bytes) (h : Heap) (e : Event) :
    (∃ pre bs post fs, docs = pre ++ bs :: post ∧ EventText env bs fs ∧ (∀ b ∈ post, ¬ ∃ fs, EventText env b fs) ∧ Holds (unmarshalEvents env docs h e).1 (unmarshalEvents env docs h e).2 fs) ∨
    ((∀ b ∈ docs, ¬ ∃ fs, EventText env b fs) ∧ unmarshalEvents env docs h e = (h, e)) := by
  have step : ∀ (bs : Bytes) (h : Heap), (∃ r fs, unmarshalEvent env bs h = some r ∧ EventText env bs fs ∧ Holds r.1 r.2 fs) ∨ (unmarshalEvent env bs h = none ∧ ¬ ∃ fs, EventText env bs fs) := by
    intro bs h
    by_cases ha : ∃ r, unmarshalEvent env bs h = some r
    · left
      obtain ⟨r, hr⟩ := ha
      rcases (unmarshalEvent_accepts_iff env bs h).1 ⟨r, hr⟩ with hd | ⟨es, h1, h2, h3⟩
      · have := unmarshalEvent_null env hd h
        exact ⟨_, none, this, .inl ⟨hd, rfl⟩, rfl⟩
      · obtain ⟨h', f, h4, h5, h6, _⟩ := unmarshalEvent_object env h1 h2 h3 h
        exact ⟨_, _, h4, .inr ⟨es, h1, h2, h3, rfl⟩, h6 ▸ h5.holds⟩
    · right
      refine ⟨by cases hu : unmarshalEvent env bs h <;> simp_all, ?_⟩
      rintro ⟨fs, hf⟩
      refine ha ((unmarshalEvent_accepts_iff env bs h).2 ?_)
      rcases hf with ⟨h1, _⟩ | ⟨es, h1, h2, h3, _⟩
      · exact .inl h1
      · exact .inr ⟨es, h1, h2, h3⟩
  have key : ∀ (l : List Bytes), (∃ pre bs post fs, l.reverse = pre ++ bs :: post ∧ EventText env bs fs ∧ (∀ b ∈ post, ¬ ∃ fs, EventText env b fs) ∧ Holds (unmarshalEvents env l.reverse h e).1 (unmarshalEvents env l.reverse h e).2 fs) ∨
      ((∀ b ∈ l.reverse, ¬ ∃ fs, EventText env b fs) ∧ unmarshalEvents env l.reverse h e = (h, e)) := by
    intro l
    induction l with
    | nil => exact .inr ⟨by simp, rfl⟩
    | cons b l ih =>
      have e1 : unmarshalEvents env (b :: l).reverse h e = (unmarshalEvent env b (unmarshalEvents env l.reverse h e).1).getD (unmarshalEvents env l.reverse h e) := by simp [unmarshalEvents]
      rw [e1]
      rcases step b (unmarshalEvents env l.reverse h e).1 with ⟨r, fs, h1, h2, h3⟩ | ⟨h1, h2⟩
      · refine .inl ⟨l.reverse, b, [], fs, by simp, h2, by simp, ?_⟩
        rw [h1]; exact h3
      · rw [h1, Option.getD_none]
        rcases ih with ⟨pre, bs, post, fs, h3, h4, h5, h6⟩ | ⟨h3, h4⟩
        · refine .inl ⟨pre, bs, post ++ [b], fs, by simp [h3], h4, ?_, h6⟩
          intro x hx
          rcases List.mem_append.1 hx with hx | hx
          · exact h5 x hx
          · rw [List.mem_singleton.1 hx]; exact h2
        · refine .inr ⟨?_, h4⟩
          intro x hx
          rw [List.reverse_cons] at hx
          rcases List.mem_append.1 hx with hx | hx
          · exact h3 x hx
          · rw [List.mem_singleton.1 hx]; exact h2
  have := key docs.reverse
  simpa using this

/-! ## Samples -/

/-- `{"a":true}`, then `"x"`, then `{"b":true}`: the value shows both `a` and `b`. -/
theorem shown_keeps_names (env : JEnv) : shown env (.obj [([98], .bool true)]) [.obj [([97], .bool true)], .str [120]] =
    .obj [([97], .scalar (.bool true)), ([98], .scalar (.bool true))] := rfl

/-- The same, from the texts. -/
theorem sample_keeps_names (env : JEnv) : (unmarshalValues env [[123, 34, 97, 34, 58, 116, 114, 117, 101, 125], [34, 120, 34], [123, 34, 98, 34, 58, 116, 114, 117, 101, 125]] .zero).visible = .obj [([97], .scalar (.bool true)), ([98], .scalar (.bool true))] := rfl

/-- `[{"a":true}, {"b":true}]`, then `[true]`, then `[{}, {}]`: both elements come back. After `[]` they do not. -/
theorem shown_stale_elements (env : JEnv) :
    shown env (.arr [.obj [], .obj []]) [.arr [.obj [([97], .bool true)], .obj [([98], .bool true)]], .arr [.bool true]] = .arr [.obj [([97], .scalar (.bool true))], .obj [([98], .scalar (.bool true))]] ∧
    shown env (.arr [.obj [], .obj []]) [.arr [.obj [([97], .bool true)], .obj [([98], .bool true)]], .arr []] = .arr [.obj [], .obj []] := ⟨rfl, rfl⟩

/-- A refused document can leave changes: `{"b":true,"c":1e999}` into a value that shows `{"a":true}` is refused and adds `b`. -/
theorem refused_changes {env : JEnv} {t : Bytes} (ht : env.atof t = none) :
    decodeValue env (.obj [([98], .bool true), ([99], .num t)]) (after env [.obj [([97], .bool true)]]) =
      (false, .val .object {} true [] 0 false [([97], .val .bool { bool := true } true [] 0 true []), ([98], .val .bool { bool := true } true [] 0 true [])]) := by
  simp only [decodeValue, decodeSlot, decodeMap, ht]
  rfl

end Sawmill
