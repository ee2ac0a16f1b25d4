import Verif.Spec.JsonInto
/-!
# Decoding into used values: lemmas
-/

namespace Sawmill
open Spec

variable {env : JEnv}

theorem visibleL_eq_map (vs : List FVal) : FVal.visibleL vs = vs.map FVal.visible := by
  induction vs with
  | nil => rfl
  | cons v vs ih => simp [FVal.visibleL, ih]

theorem visibleE_insert (m : List (Bytes × FVal)) (k : Bytes) (v : FVal) : FVal.visibleE (AMap.insert m k v) = AMap.insert (FVal.visibleE m) k v.visible := by
  induction m with
  | nil => rfl
  | cons e m ih =>
    obtain ⟨k', v'⟩ := e
    simp only [AMap.insert, FVal.visibleE]
    split
    · rfl
    · split
      · rfl
      · simp [FVal.visibleE, ih]

theorem made_ne_nil (v : FVal) : v.made ≠ .nil := by cases v <;> simp [FVal.made, FVal.zero]
theorem made_of_ne {v : FVal} (h : v ≠ .nil) : v.made = v := by cases v <;> simp_all [FVal.made]
theorem made_made (v : FVal) : v.made.made = v.made := made_of_ne (made_ne_nil v)
theorem put_ne {v : FVal} (h : v ≠ .nil) (t : VType) (f : Leaves → Leaves) : v.put t f ≠ .nil := by cases v <;> simp_all [FVal.put]
theorem setArray_ne {v : FVal} (h : v ≠ .nil) (b : Bool) (d r : List FVal) : v.setArray b d r ≠ .nil := by cases v <;> simp_all [FVal.setArray]
theorem setObject_ne {v : FVal} (h : v ≠ .nil) (b : Bool) (es : List (Bytes × FVal)) : v.setObject b es ≠ .nil := by cases v <;> simp_all [FVal.setObject]

theorem decodeSlot_made {j : Json} (hj : isNull j = false) (v : FVal) : decodeSlot env j v = decodeSlot env j v.made ∧ (decodeSlot env j v).2 ≠ .nil := by
  cases j with
  | null => simp [isNull] at hj
  | bool b => exact ⟨by simp only [decodeSlot, made_made], put_ne (made_ne_nil v) _ _⟩
  | num t =>
    simp only [decodeSlot, made_made, true_and]
    cases env.atof t with
    | none => exact made_ne_nil v
    | some f => exact put_ne (made_ne_nil v) _ _
  | str s => exact ⟨by simp only [decodeSlot, made_made], put_ne (made_ne_nil v) _ _⟩
  | arr js => exact ⟨by simp only [decodeSlot, made_made], setArray_ne (made_ne_nil v) _ _ _⟩
  | obj es => exact ⟨by simp only [decodeSlot, made_made], setObject_ne (made_ne_nil v) _ _⟩

theorem decodeValue_slot {j : Json} (hj : isNull j = false) (v : FVal) : decodeValue env j v = decodeSlot env j v := by
  cases j <;> simp_all [decodeValue, isNull]

theorem decodeValue_ne {j : Json} {v : FVal} (hv : v ≠ .nil) : (decodeValue env j v).2 ≠ .nil := by
  by_cases hj : isNull j
  · cases j <;> simp_all [isNull, decodeValue]
    exact put_ne hv _ _
  · rw [decodeValue_slot (by simpa using hj)]
    exact (decodeSlot_made (by simpa using hj) v).2

/-! ## Success -/

mutual
theorem decodeSlot_ok : ∀ (j : Json) (v : FVal), (decodeSlot env j v).1 = true ↔ InRange env j
  | .null, _ => by simp [decodeSlot, InRange]
  | .bool _, _ => by simp [decodeSlot, InRange]
  | .num t, v => by
    simp only [decodeSlot, InRange]
    cases env.atof t <;> simp
  | .str _, _ => by simp [decodeSlot, InRange]
  | .arr js, v => by simp only [decodeSlot, InRange]; exact decodeSlots_ok js _
  | .obj es, v => by simp only [decodeSlot, InRange]; exact decodeMap_ok es _
theorem decodeSlots_ok : ∀ (js : List Json) (ss : List FVal), (decodeSlots env js ss).1 = true ↔ InRangeL env js
  | [], _ => by simp [decodeSlots, InRangeL]
  | j :: js, ss => by
    have h1 := decodeSlot_ok j (ss.headD .nil)
    have h2 := decodeSlots_ok js ss.tail
    simp only [decodeSlots, InRangeL]
    split
    · next h => simp only [h2, h1.1 h, true_and]
    · next h => simp only [Bool.false_eq_true, false_iff]; intro hr; exact h (h1.2 hr.1)
theorem decodeMap_ok : ∀ (es : List (Bytes × Json)) (m : List (Bytes × FVal)), (decodeMap env es m).1 = true ↔ InRangeE env es
  | [], _ => by simp [decodeMap, InRangeE]
  | (k, j) :: es, m => by
    have h1 := decodeSlot_ok j .nil
    have h2 := fun m => decodeMap_ok es m
    simp only [decodeMap, InRangeE]
    split
    · next h => simp only [h2, h1.1 h, true_and]
    · next h => simp only [Bool.false_eq_true, false_iff]; intro hr; exact h (h1.2 hr.1)
end

/-! ## Arrays -/

theorem decodeSlots_length (js : List Json) (ss : List FVal) (hr : InRangeL env js) : (decodeSlots env js ss).2.1.length = js.length := by
  induction js generalizing ss with
  | nil => rfl
  | cons j js ih =>
    have h := (decodeSlot_ok (env := env) j (ss.headD .nil)).2 hr.1
    simp only [decodeSlots, h, if_true, List.length_cons]
    rw [ih _ hr.2]

/-- The places afterwards. -/
theorem decodeSlots_getD (js : List Json) (ss : List FVal) (hr : InRangeL env js) (i : Nat) :
    ((decodeSlots env js ss).2.1 ++ (decodeSlots env js ss).2.2).getD i .nil =
      match js[i]? with
      | some j => (decodeSlot env j (ss.getD i .nil)).2
      | none => ss.getD i .nil := by
  induction js generalizing ss i with
  | nil => simp [decodeSlots]
  | cons j js ih =>
    have h := (decodeSlot_ok (env := env) j (ss.headD .nil)).2 hr.1
    simp only [decodeSlots, h, if_true, List.cons_append]
    cases i with
    | zero => cases ss <;> simp
    | succ i =>
      rw [List.getD_cons_succ, ih _ hr.2]
      cases ss <;> simp

theorem setArray_slots {v : FVal} (h : v ≠ .nil) (b : Bool) (d r : List FVal) : (v.setArray b d r).slots = d ++ r := by cases v <;> simp_all [FVal.setArray, FVal.slots]
theorem setObject_slots (v : FVal) (b : Bool) (es : List (Bytes × FVal)) : (v.setObject b es).slots = v.slots := by cases v <;> rfl
theorem put_slots (v : FVal) (t : VType) (f : Leaves → Leaves) : (v.put t f).slots = v.slots := by cases v <;> rfl
theorem setArray_entries (v : FVal) (b : Bool) (d r : List FVal) : (v.setArray b d r).entries = v.entries := by cases v <;> rfl
theorem setObject_entries {v : FVal} (h : v ≠ .nil) (b : Bool) (es : List (Bytes × FVal)) : (v.setObject b es).entries = es := by cases v <;> simp_all [FVal.setObject, FVal.entries]
theorem put_entries (v : FVal) (t : VType) (f : Leaves → Leaves) : (v.put t f).entries = v.entries := by cases v <;> rfl

/-! ## Into a new value -/

mutual
theorem fresh_slot : ∀ (j : Json), InRange env j → ∀ (v : FVal), v = .nil → (decodeSlot env j v).2.visible = jsonVal env j
  | .null, _, v, hv => rfl
  | .bool b, _, v, hv => by subst hv; rfl
  | .num t, hr, v, hv => by
    subst hv
    simp only [InRange] at hr
    obtain ⟨f, hf⟩ := Option.isSome_iff_exists.1 hr
    simp only [decodeSlot, hf, jsonVal]; rfl
  | .str _, _, v, hv => by subst hv; rfl
  | .arr js, hr, v, hv => by
    subst hv
    have hl := decodeSlots_length (env := env) js [] hr
    have hk := (decodeSlots_ok (env := env) js []).2 hr
    have ih := fresh_slots js hr
    simp only [decodeSlot, FVal.made, FVal.zero, FVal.slots, FVal.setArray, hk, if_true, FVal.visible, jsonVal, Bool.false_eq_true, if_false, visibleL_eq_map, List.map_append] at ih ⊢
    rw [List.take_left' (by simp), ih]
  | .obj es, hr, v, hv => by
    subst hv
    have hk := (decodeMap_ok (env := env) es []).2 hr
    have ih := fresh_map es hr []
    simp only [decodeSlot, FVal.made, FVal.zero, FVal.entries, FVal.setObject, hk, if_true, FVal.visible, jsonVal, Bool.false_eq_true, if_false] at ih ⊢
    rw [ih]; rfl
theorem fresh_slots : ∀ (js : List Json), InRangeL env js → FVal.visibleL (decodeSlots env js []).2.1 = jsonValL env js
  | [], _ => rfl
  | j :: js, hr => by
    have h1 := fresh_slot j hr.1 .nil rfl
    have h2 := fresh_slots js hr.2
    have hk := (decodeSlot_ok (env := env) j .nil).2 hr.1
    simp only [decodeSlots, List.headD_nil, List.tail_nil, hk, if_true, FVal.visibleL, jsonValL, h1, h2]
theorem fresh_map : ∀ (es : List (Bytes × Json)), InRangeE env es → ∀ (m : List (Bytes × FVal)), FVal.visibleE (decodeMap env es m).2 = AMap.ofEntries (jsonValE env es) (FVal.visibleE m)
  | [], _, m => rfl
  | (k, j) :: es, hr, m => by
    have h1 := fresh_slot j hr.1 .nil rfl
    have hk := (decodeSlot_ok (env := env) j .nil).2 hr.1
    simp only [decodeMap, hk, if_true, jsonValE, AMap.ofEntries_cons]
    rw [fresh_map es hr.2, visibleE_insert, h1]
end

/-! ## Histories -/

/-- A new `Value` after some documents. -/
def after (env : JEnv) (hist : List Json) : FVal := hist.foldl (fun v j => (decodeValue env j v).2) .zero
/-- A nil `*Value` after some documents. -/
def afterSlot (env : JEnv) (hist : List Json) : FVal := hist.foldl (fun v j => (decodeSlot env j v).2) .nil

theorem after_snoc (hist : List Json) (j : Json) : after env (hist ++ [j]) = (decodeValue env j (after env hist)).2 := by simp [after]
theorem afterSlot_snoc (hist : List Json) (j : Json) : afterSlot env (hist ++ [j]) = (decodeSlot env j (afterSlot env hist)).2 := by simp [afterSlot]

theorem after_ne (hist : List Json) : after env hist ≠ .nil := by
  rw [← List.reverse_reverse hist]
  induction hist.reverse with
  | nil => simp [after, FVal.zero]
  | cons j js ih => rw [List.reverse_cons, after_snoc]; exact decodeValue_ne ih

theorem since_snoc_pos {α : Type} {p : α → Bool} {x : α} (hx : p x = true) (l : List α) : since p (l ++ [x]) = [] := by
  induction l with
  | nil => simp [since, hx]
  | cons y l ih => simp [since, hx, ih]

theorem since_snoc_neg {α : Type} {p : α → Bool} {x : α} (hx : p x = false) (l : List α) : since p (l ++ [x]) = since p l ++ [x] := by
  induction l with
  | nil => simp [since, hx]
  | cons y l ih =>
    have e : (y :: (l ++ [x])).any p = (y :: l).any p := by simp [hx]
    rw [List.cons_append]
    unfold since
    rw [e]
    cases (y :: l).any p with
    | true => simp only [if_true, ih]
    | false => simp

theorem afterSlot_made (hist : List Json) : (afterSlot env hist).made = after env (since isNull hist) := by
  rw [← List.reverse_reverse hist]
  induction hist.reverse with
  | nil => rfl
  | cons j js ih =>
    rw [List.reverse_cons, afterSlot_snoc]
    cases hj : isNull j with
    | true =>
      rw [since_snoc_pos hj]
      cases j <;> simp_all [isNull]
      rfl
    | false =>
      rw [since_snoc_neg hj, after_snoc, ← ih, decodeValue_slot hj, ← (decodeSlot_made hj _).1, made_of_ne (decodeSlot_made hj _).2]

theorem since_mem {α : Type} {p : α → Bool} {l : List α} {x : α} (h : x ∈ since p l) : x ∈ l := by
  induction l with
  | nil => exact h
  | cons y l ih =>
    simp only [since] at h
    split at h
    · exact List.mem_cons_of_mem _ (ih h)
    · exact h

theorem after_entries (hist : List Json) (hr : ∀ j ∈ hist, InRange env j) : FVal.visibleE (after env hist).entries = AMap.ofEntries (jsonValE env (hist.flatMap entriesOf)) [] := by
  have key : ∀ l : List Json, (∀ j ∈ l, InRange env j) → FVal.visibleE (after env l.reverse).entries = AMap.ofEntries (jsonValE env (l.reverse.flatMap entriesOf)) [] := by
    intro l
    induction l with
    | nil => intro _; rfl
    | cons j l ih =>
      intro hr
      have ih := ih fun x hx => hr x (by simp [hx])
      have hj := hr j (by simp)
      have happ : ∀ (a b : List (Bytes × Json)), AMap.ofEntries (jsonValE env (a ++ b)) [] = AMap.ofEntries (jsonValE env b) (AMap.ofEntries (jsonValE env a) []) := by
        have hv : ∀ (a b : List (Bytes × Json)), jsonValE env (a ++ b) = jsonValE env a ++ jsonValE env b := by
          intro a b
          induction a with
          | nil => rfl
          | cons e a iha => obtain ⟨k, j⟩ := e; simp [jsonValE, iha]
        intro a b
        rw [hv, AMap.ofEntries, List.foldl_append]; rfl
      rw [List.reverse_cons, after_snoc, List.flatMap_append, happ, ← ih]
      have hne := after_ne (env := env) l.reverse
      cases j with
      | null => simp only [decodeValue, put_entries]; rfl
      | bool b => simp only [decodeValue, decodeSlot, put_entries, made_of_ne hne]; rfl
      | num t =>
        simp only [decodeValue, decodeSlot, made_of_ne hne]
        cases env.atof t with
        | none => rfl
        | some f => simp only [put_entries]; rfl
      | str s => simp only [decodeValue, decodeSlot, put_entries, made_of_ne hne]; rfl
      | arr js => simp only [decodeValue, decodeSlot, setArray_entries, made_of_ne hne]; rfl
      | obj es =>
        simp only [decodeValue, decodeSlot, made_of_ne hne, setObject_entries hne]
        rw [fresh_map es hj]; simp [entriesOf]
  have := key hist.reverse (by simpa using hr)
  simpa using this

/-- The arrays that matter. -/
def arraysOf (hist : List Json) : List (List Json) := since List.isEmpty (hist.filterMap elementsOf)

theorem after_slots (hist : List Json) (hr : ∀ j ∈ hist, InRange env j) (i : Nat) : (after env hist).slots.getD i .nil = afterSlot env ((arraysOf hist).filterMap (·[i]?)) := by
  have key : ∀ l : List Json, (∀ j ∈ l, InRange env j) → (after env l.reverse).slots.getD i .nil = afterSlot env ((arraysOf l.reverse).filterMap (·[i]?)) := by
    intro l
    induction l with
    | nil => intro _; rfl
    | cons j l ih =>
      intro hr
      have ih := ih fun x hx => hr x (by simp [hx])
      have hj := hr j (by simp)
      rw [List.reverse_cons, after_snoc]
      have hne := after_ne (env := env) l.reverse
      have hsame : ∀ j, elementsOf j = none → arraysOf (l.reverse ++ [j]) = arraysOf l.reverse := by
        intro j h; simp [arraysOf, List.filterMap_append, h]
      cases j with
      | null => rw [hsame _ rfl, ← ih]; simp only [decodeValue, put_slots]
      | bool b => rw [hsame _ rfl, ← ih]; simp only [decodeValue, decodeSlot, put_slots, made_of_ne hne]
      | num t =>
        rw [hsame _ rfl, ← ih]
        simp only [decodeValue, decodeSlot, made_of_ne hne]
        cases env.atof t with
        | none => rfl
        | some f => simp only [put_slots]
      | str s => rw [hsame _ rfl, ← ih]; simp only [decodeValue, decodeSlot, put_slots, made_of_ne hne]
      | obj es => rw [hsame _ rfl, ← ih]; simp only [decodeValue, decodeSlot, setObject_slots, made_of_ne hne]
      | arr js =>
        simp only [decodeValue, decodeSlot, made_of_ne hne, setArray_slots hne]
        have ha : arraysOf (l.reverse ++ [.arr js]) = since List.isEmpty (l.reverse.filterMap elementsOf ++ [js]) := by simp [arraysOf, List.filterMap_append, elementsOf]
        rw [ha]
        cases js with
        | nil => rw [since_snoc_pos (by rfl)]; rfl
        | cons x xs =>
          rw [since_snoc_neg (by rfl), List.filterMap_append]
          simp only [List.isEmpty_cons, Bool.false_eq_true, if_false]
          rw [decodeSlots_getD (x :: xs) _ hj i, ih]
          show _ = afterSlot env ((arraysOf l.reverse).filterMap (·[i]?) ++ [x :: xs].filterMap (·[i]?))
          cases hx : (x :: xs)[i]? with
          | none => simp [List.filterMap_cons, hx]
          | some y => simp only [List.filterMap_cons, hx, List.filterMap_nil]; rw [afterSlot_snoc]
  have := key hist.reverse (by simpa using hr)
  simpa using this

theorem inRangeL_mem {js : List Json} (h : InRangeL env js) {j : Json} (hj : j ∈ js) : InRange env j := by
  induction js with
  | nil => simp at hj
  | cons x js ih =>
    rcases List.mem_cons.1 hj with rfl | h1
    · exact h.1
    · exact ih h.2 h1

theorem inRangeL_tail {js : List Json} (h : InRangeL env js) : InRangeL env js.tail := by
  cases js with
  | nil => exact h
  | cons x js => exact h.2

mutual
theorem shown_slot : ∀ (j : Json), isNull j = false → InRange env j → ∀ hist : List Json, (∀ x ∈ hist, InRange env x) → (decodeSlot env j (after env hist)).2.visible = shown env j hist
  | .null, h, _, _, _ => by simp [isNull] at h
  | .bool b, _, _, hist, _ => by
    have hne := after_ne (env := env) hist
    simp only [decodeSlot, made_of_ne hne, shown]
    revert hne; cases after env hist <;> simp [FVal.put, FVal.visible]
  | .num t, _, hr, hist, _ => by
    have hne := after_ne (env := env) hist
    simp only [InRange] at hr
    obtain ⟨f, hf⟩ := Option.isSome_iff_exists.1 hr
    simp only [decodeSlot, made_of_ne hne, shown, hf]
    revert hne; cases after env hist <;> simp [FVal.put, FVal.visible]
  | .str s, _, _, hist, _ => by
    have hne := after_ne (env := env) hist
    simp only [decodeSlot, made_of_ne hne, shown]
    revert hne; cases after env hist <;> simp [FVal.put, FVal.visible]
  | .obj es, _, hr, hist, hh => by
    have hne := after_ne (env := env) hist
    have h1 := after_entries (env := env) (hist ++ [.obj es]) (by
      intro x hx
      rcases List.mem_append.1 hx with hx | hx
      · exact hh x hx
      · rw [List.mem_singleton.1 hx]; exact hr)
    rw [after_snoc] at h1
    simp only [decodeValue, decodeSlot, made_of_ne hne, shown] at h1 ⊢
    have hk := (decodeMap_ok (env := env) es (after env hist).entries).2 hr
    revert h1 hne
    generalize (decodeMap env es (after env hist).entries) = r at hk
    cases after env hist <;> simp [FVal.setObject, FVal.visible, FVal.entries, hk, entriesOf]
  | .arr js, _, hr, hist, hh => by
    have hne := after_ne (env := env) hist
    have h1 := shown_slots js hr (arraysOf hist) (after env hist).slots (after_slots hist hh) (by
      intro a ha
      have := since_mem ha
      obtain ⟨x, hx, hx2⟩ := List.mem_filterMap.1 this
      have hxr := hh x hx
      cases x <;> simp [elementsOf] at hx2
      subst hx2; exact hxr)
    simp only [decodeSlot, made_of_ne hne, shown]
    have hk := (decodeSlots_ok (env := env) js (after env hist).slots).2 hr
    have hl := decodeSlots_length (env := env) js (after env hist).slots hr
    revert h1 hne
    generalize (decodeSlots env js (after env hist).slots) = r at hk hl
    intro hne h1
    have h2 : ∀ v : FVal, v ≠ .nil → ∀ rest, (v.setArray r.1 r.2.1 rest).visible = .arr (FVal.visibleL r.2.1) := by
      intro v hv rest
      cases v with
      | nil => simp at hv
      | val => simp only [FVal.setArray, hk, if_true, FVal.visible, Bool.false_eq_true, if_false, visibleL_eq_map, List.map_append]; rw [List.take_left' (by simp)]
    rw [h2 _ hne, h1]; rfl
theorem shown_slots : ∀ (js : List Json), InRangeL env js → ∀ (arrays : List (List Json)) (ss : List FVal), (∀ i, ss.getD i .nil = afterSlot env (arrays.filterMap (·[i]?))) → (∀ a ∈ arrays, InRangeL env a) →
    FVal.visibleL (decodeSlots env js ss).2.1 = shownL env js arrays
  | [], _, _, _, _, _ => rfl
  | j :: js, hr, arrays, ss, hs, ha => by
    have hk := (decodeSlot_ok (env := env) j (ss.headD .nil)).2 hr.1
    have h0 := hs 0
    have ih := shown_slots js hr.2 (arrays.map List.tail) ss.tail (by
      intro i
      have := hs (i + 1)
      rw [List.filterMap_map]
      have e1 : ss.tail.getD i .nil = ss.getD (i + 1) .nil := by cases ss <;> simp
      rw [e1, this]
      congr 2
      funext a
      cases a <;> simp) (by
      intro a h
      obtain ⟨b, hb, rfl⟩ := List.mem_map.1 h
      exact inRangeL_tail (ha b hb))
    have hd : ss.headD .nil = afterSlot env (arrays.filterMap List.head?) := by
      have e1 : ss.headD .nil = ss.getD 0 .nil := by cases ss <;> simp
      rw [e1, h0]
      congr 2
      funext a
      cases a <;> simp
    have hin : ∀ x ∈ since isNull (arrays.filterMap List.head?), InRange env x := by
      intro x hx
      obtain ⟨a, h1, h2⟩ := List.mem_filterMap.1 (since_mem hx)
      exact inRangeL_mem (ha a h1) (List.mem_of_head? h2)
    have main := fun hj => shown_slot j hj hr.1 (since isNull (arrays.filterMap List.head?)) hin
    simp only [decodeSlots, hk, if_true, FVal.visibleL, ih]
    cases hj : isNull j with
    | true => cases j <;> simp_all [isNull]; simp [decodeSlot, FVal.visible, shownL]
    | false =>
      rw [(decodeSlot_made hj _).1, hd, afterSlot_made, main hj]
      cases j <;> simp_all [isNull, shownL]
end

end Sawmill
