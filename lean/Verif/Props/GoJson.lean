import Verif.Model.GoJson
import Verif.Spec.GoJson
import Verif.Props.Reflect
import Verif.Props.Json
import Verif.Lemmas.JsonFun
import Verif.Lemmas.ConfigEnc
/-!
# C81, C82: events, plain Go maps and JSON
-/

namespace Sawmill
open ATree Spec Rfc

/-- A new event: everything in it is in memory that did not exist in `h`, in which nothing is changed. -/
def NewEvent (h h' : Heap) (e : Event) : Prop := ∃ f : AFields, e = f.event ∧ Owns h' f ∧ (∀ a ∈ f.fp, h.length ≤ a) ∧ Frame [] h h'

theorem goTime_year {n : Int} (h : IsI64 n) : 0 ≤ (timeGoTime n).year ∧ (timeGoTime n).year < 10000 := by
  rw [goTime_exact h]
  unfold IsI64 at h
  have habs : GoTime.abs ⟨n / 1000000000 + unixToInternal, (n % 1000000000).toNat⟩ = (n / 1000000000 + 62135596800 + 730692556 * 146097 * 86400).toNat := by
    simp only [GoTime.abs, absoluteToInternal, absoluteZeroYear, unixToInternal]
    omega
  simp only [GoTime.year, absDate]
  rw [habs]
  generalize habs' : (n / 1000000000 + 62135596800 + 730692556 * 146097 * 86400).toNat = abs
  obtain ⟨y, yd, hy, hy1, hyd, hD⟩ := absYear_spec abs (by omega)
  rw [hy]
  have := daysBeforeYear_eq y hy1
  simp only []
  omega

theorem goTimeJson_eq (t : BitVec 64) : goTimeJson (timeGoTime t.toInt) = compact (timeMarshalJSON t.toInt) := by
  have := goTime_year (n := t.toInt) ⟨by have := BitVec.le_toInt t; omega, by have := BitVec.toInt_lt (x := t); omega⟩
  simp only [goTimeJson, timeMarshalJSON]
  rw [if_neg (by omega)]

mutual
theorem encG_goOf (env : JEnv) (text : GoTime → Bytes) : ∀ (v : Val), encG env (goOf text v) = encI env v.filled
  | .nilp => rfl
  | .scalar .null => rfl
  | .scalar (.bool _) => rfl
  | .scalar (.int _) => rfl
  | .scalar (.uint _) => rfl
  | .scalar (.float _) => rfl
  | .scalar (.str _) => rfl
  | .scalar (.ts t) => by simp only [goOf, stdTime, encG, encGV, goTimeJson_eq]; rfl
  | .arrNil => by simp [goOf, encG, encGV, Val.filled, encI, encGL, encIL]
  | .arr vs => by simp only [goOf, encG, encGV, Val.filled, encI, encGL_goOf env text vs]
  | .objNil => by simp [goOf, stdVal, encG, encGV, Val.filled, encI, encGE, encIE]
  | .obj es => by simp only [goOf, stdVal, encG, encGV, Val.filled, encI, encGE_goOf env text es]
theorem encGL_goOf (env : JEnv) (text : GoTime → Bytes) : ∀ (vs : List Val), encGL env (goOfL text vs) = encIL env (Val.filledL vs)
  | [] => rfl
  | v :: vs => by simp only [goOfL, encGL, Val.filledL, encIL, encG_goOf env text v, encGL_goOf env text vs]
theorem encGE_goOf (env : JEnv) (text : GoTime → Bytes) : ∀ (es : List (Bytes × Val)), encGE env (goOfE text es) = encIE env (Val.filledE es)
  | [] => rfl
  | (k, v) :: es => by simp only [goOfE, encGE, Val.filledE, encIE, encG_goOf env text v, encGE_goOf env text es]
end

mutual
theorem Val.filled_same : ∀ (v : Val), v.NoNilLists → v.filled = v
  | .nilp, _ => rfl
  | .scalar _, _ => rfl
  | .arrNil, h => absurd h (by simp [Val.NoNilLists])
  | .objNil, h => absurd h (by simp [Val.NoNilLists])
  | .arr vs, h => by simp only [Val.filled, Val.filledL_same vs (by simpa only [Val.NoNilLists] using h)]
  | .obj es, h => by simp only [Val.filled, Val.filledE_same es (by simpa only [Val.NoNilLists] using h)]
theorem Val.filledL_same : ∀ (vs : List Val), Val.NoNilListsL vs → Val.filledL vs = vs
  | [], _ => rfl
  | v :: vs, h => by
    simp only [Val.NoNilListsL] at h
    simp only [Val.filledL, Val.filled_same v h.1, Val.filledL_same vs h.2]
theorem Val.filledE_same : ∀ (es : List (Bytes × Val)), Val.NoNilListsE es → Val.filledE es = es
  | [], _ => rfl
  | (k, v) :: es, h => by
    simp only [Val.NoNilListsE] at h
    simp only [Val.filledE, Val.filled_same v h.1, Val.filledE_same es h.2]
end

mutual
theorem Val.filled_finite : ∀ (v : Val), v.filled.FiniteFloats ↔ v.FiniteFloats
  | .nilp => Iff.rfl
  | .scalar _ => Iff.rfl
  | .arrNil => by simp [Val.filled, Val.FiniteFloats, Val.FiniteFloatsL]
  | .objNil => by simp [Val.filled, Val.FiniteFloats, Val.FiniteFloatsE]
  | .arr vs => by simp only [Val.filled, Val.FiniteFloats, Val.filledL_finite vs]
  | .obj es => by simp only [Val.filled, Val.FiniteFloats, Val.filledE_finite es]
theorem Val.filledL_finite : ∀ (vs : List Val), Val.FiniteFloatsL (Val.filledL vs) ↔ Val.FiniteFloatsL vs
  | [] => Iff.rfl
  | v :: vs => by simp only [Val.filledL, Val.FiniteFloatsL, Val.filled_finite v, Val.filledL_finite vs]
theorem Val.filledE_finite : ∀ (es : List (Bytes × Val)), Val.FiniteFloatsE (Val.filledE es) ↔ Val.FiniteFloatsE es
  | [] => Iff.rfl
  | (k, v) :: es => by simp only [Val.filledE, Val.FiniteFloatsE, Val.filled_finite v, Val.filledE_finite es]
end

theorem joinText_all_ok {α : Type} {f : α → JOut Bytes} : ∀ (xs : List α), (∀ x ∈ xs, ∃ t, f x = .ok t) → ∃ t, joinText f xs = .ok t
  | [], _ => ⟨_, rfl⟩
  | [x], h => h x (by simp)
  | x :: y :: xs, h => by
    obtain ⟨a, ha⟩ := h x (by simp)
    obtain ⟨b, hb⟩ := joinText_all_ok (y :: xs) fun z hz => h z (List.mem_cons_of_mem _ hz)
    exact ⟨_, by rw [joinText, ha, hb]; rfl; simp⟩

mutual
theorem encI_finite (env : JEnv) : ∀ (v : Val), v.FiniteFloats → ∃ t, encI env v = .ok t
  | .nilp, _ => ⟨_, rfl⟩
  | .scalar .null, _ => ⟨_, rfl⟩
  | .scalar (.bool _), _ => ⟨_, rfl⟩
  | .scalar (.int _), _ => ⟨_, rfl⟩
  | .scalar (.uint _), _ => ⟨_, rfl⟩
  | .scalar (.float f), h => ⟨_, by rw [encI, if_pos (show finite f = true from h)]⟩
  | .scalar (.str _), _ => ⟨_, rfl⟩
  | .scalar (.ts t), _ => by
    obtain ⟨s, h1, h2⟩ := timestamp_json t
    exact ⟨_, by rw [encI, compact_ok h1 (by simp [depth])]⟩
  | .arrNil, _ => ⟨_, rfl⟩
  | .arr vs, h => by
    obtain ⟨t, ht⟩ := joinText_all_ok (f := id) (encIL env vs) (fun x hx => encIL_finite env vs h x hx)
    exact ⟨_, by rw [encI, arrText, ht]; rfl⟩
  | .objNil, _ => ⟨_, rfl⟩
  | .obj es, h => by
    obtain ⟨t, ht⟩ := joinText_all_ok (f := fun e : Bytes × JOut Bytes => e.2.bind fun t => .ok (encStr e.1 ++ 58 :: t)) (encIE env es) (fun x hx => by
      obtain ⟨t, ht⟩ := encIE_finite env es h x hx
      exact ⟨_, by rw [ht]; rfl⟩)
    exact ⟨_, by rw [encI, mapText, ht]; rfl⟩
theorem encIL_finite (env : JEnv) : ∀ (vs : List Val), Val.FiniteFloatsL vs → ∀ x ∈ encIL env vs, ∃ t, x = .ok t
  | [], _ => by simp [encIL]
  | v :: vs, h => by
    simp only [encIL, List.mem_cons, forall_eq_or_imp]
    exact ⟨encI_finite env v h.1, encIL_finite env vs h.2⟩
theorem encIE_finite (env : JEnv) : ∀ (es : List (Bytes × Val)), Val.FiniteFloatsE es → ∀ x ∈ encIE env es, ∃ t, x.2 = .ok t
  | [], _ => by simp [encIE]
  | (k, v) :: vs, h => by
    simp only [encIE, List.mem_cons, forall_eq_or_imp]
    exact ⟨encI_finite env v h.1, encIE_finite env vs h.2⟩
end

/-- The JSON of `FromEvent` of an event. -/
theorem marshalMap_fromEvent {env : JEnv} {text : GoTime → Bytes} {h : Heap} {e : Event} {f : Fields} (hh : Holds h e f) :
    ∃ N m, (∀ n, N ≤ n → mapFromEvent text n h e = some (.ok m)) ∧ (f.getD [] = [] → marshalMap env m = .ok (lit "null")) ∧ (f.getD [] ≠ [] → marshalMap env m = encI env (.obj (Val.filledE (f.getD [])))) := by
  obtain ⟨N, hN⟩ := mapFromEvent_spec (text := text) hh
  refine ⟨N, _, hN, fun h0 => by rw [if_pos h0]; rfl, fun h0 => ?_⟩
  rw [if_neg h0, marshalMap, encGE_goOf, encI]

/-- C82. The JSON of the map that `FromEvent` returns. For an event without fields it is `null`. Otherwise: it is an error exactly if there is a NaN or an infinity inside - there is no limit to the nesting -, and it is the text that
`json.Marshal` of the event itself makes, if that succeeds and there is no nil array and no nil object inside. In any case it says the contents, with empty arrays and objects for nil ones. -/
theorem map_json {env : JEnv} (hl : env.Lawful) {text : GoTime → Bytes} {h : Heap} {e : Event} {f : Fields} (hh : Holds h e f) :
    ∃ N m, (∀ n, N ≤ n → mapFromEvent text n h e = some (.ok m)) ∧
      (f.getD [] = [] → marshalMap env m = .ok (lit "null")) ∧
      (∀ es, f = some es → es ≠ [] →
        (¬ Val.FiniteFloatsE es → marshalMap env m = .error) ∧
        (Val.FiniteFloatsE es → ∃ t js, marshalMap env m = .ok t ∧ Text (.obj js) t ∧ SaysE env (Val.filledE es) js) ∧
        (Val.NoNilListsE es → ∀ n t, marshalEvent env n h e = .ok t → marshalMap env m = .ok t)) := by
  obtain ⟨N, m, h1, h2, h3⟩ := marshalMap_fromEvent (env := env) (text := text) hh
  refine ⟨N, m, h1, h2, ?_⟩
  rintro es rfl hne
  rw [h3 hne]
  have hs := encI_spec hl (.obj (Val.filledE es))
  simp only [Option.getD_some]
  refine ⟨fun hf => ?_, fun hf => ?_, fun hn n t ht => ?_⟩
  · rcases hs with ⟨hf', _⟩ | ⟨he, _⟩
    · exact absurd ((Val.filledE_finite es).1 hf') hf
    · exact he
  · obtain ⟨t, ht⟩ := encI_finite env (.obj (Val.filledE es)) ((Val.filledE_finite es).2 hf)
    rcases hs with ⟨_, t, j, h1, h2, js, rfl, h3⟩ | ⟨he, _⟩
    · exact ⟨t, js, h1, h2, h3⟩
    · rw [ht] at he; cases he
  · rw [Val.filledE_same es hn]
    exact marshalEvent_enc hh ht

/-! ## Decoding -/

theorem goOfE_insert (text : GoTime → Bytes) (k : Bytes) (v : Val) : ∀ (m : AMap Val), goOfE text (AMap.insert m k v) = AMap.insert (goOfE text m) k (goOf text v)
  | [] => by simp [AMap.insert, goOfE]
  | (k', v') :: m => by
    simp only [AMap.insert, goOfE]
    split
    · simp [goOfE]
    · split
      · simp [goOfE]
      · simp [goOfE, goOfE_insert text k v m]

mutual
theorem decG_spec (env : JEnv) (text : GoTime → Bytes) : ∀ (j : Json), (¬ InRange env j → decG env j = none) ∧ (InRange env j → decG env j = some (goOf text (jsonVal env j)))
  | .null => ⟨fun h => absurd trivial h, fun _ => rfl⟩
  | .bool _ => ⟨fun h => absurd trivial h, fun _ => rfl⟩
  | .num t => by
    simp only [InRange, decG, jsonVal]
    cases env.atof t <;> simp [goOf]
  | .str _ => ⟨fun h => absurd trivial h, fun _ => rfl⟩
  | .arr js => by
    have ih := decGL_spec env text js
    simp only [InRange, decG, jsonVal, goOf]
    exact ⟨fun h => by rw [ih.1 h]; rfl, fun h => by rw [ih.2 h]; rfl⟩
  | .obj es => by
    have ih := decGE_spec env text es []
    simp only [InRange, decG, jsonVal, goOf]
    exact ⟨fun h => by rw [show decGE env es [] = none from ih.1 h]; rfl, fun h => by rw [show decGE env es [] = _ from ih.2 h]; rfl⟩
theorem decGL_spec (env : JEnv) (text : GoTime → Bytes) : ∀ (js : List Json), (¬ InRangeL env js → decGL env js = none) ∧ (InRangeL env js → decGL env js = some (goOfL text (jsonValL env js)))
  | [] => ⟨fun h => absurd trivial h, fun _ => rfl⟩
  | j :: js => by
    have i1 := decG_spec env text j
    have i2 := decGL_spec env text js
    simp only [InRangeL, decGL, jsonValL, goOfL]
    refine ⟨fun h => ?_, fun h => by rw [i1.2 h.1, i2.2 h.2]⟩
    by_cases h1 : InRange env j
    · rw [i2.1 fun h2 => h ⟨h1, h2⟩]
      cases decG env j <;> rfl
    · rw [i1.1 h1]
theorem decGE_spec (env : JEnv) (text : GoTime → Bytes) : ∀ (es : List (Bytes × Json)) (m : AMap Val), (¬ InRangeE env es → decGE env es (goOfE text m) = none) ∧
    (InRangeE env es → decGE env es (goOfE text m) = some (goOfE text (AMap.ofEntries (jsonValE env es) m)))
  | [], m => ⟨fun h => absurd trivial h, fun _ => rfl⟩
  | (k, j) :: es, m => by
    have i1 := decG_spec env text j
    have i2 := decGE_spec env text es
    simp only [InRangeE, decGE, jsonValE, AMap.ofEntries_cons]
    refine ⟨fun h => ?_, fun h => by rw [i1.2 h.1]; simp only []; rw [← goOfE_insert, (i2 _).2 h.2]⟩
    by_cases h1 : InRange env j
    · rw [i1.2 h1]
      simp only []
      rw [← goOfE_insert, (i2 _).1 fun h2 => h ⟨h1, h2⟩]
    · rw [i1.1 h1]
end

mutual
/-- No part of a value that `FromEvent` returns is unsupported or panics. -/
theorem goOf_clean (text : GoTime → Bytes) : ∀ (v : Val), Clean (.iface (goOf text v))
  | .nilp => clean_of_parts (by rintro ⟨⟩) (by rintro ⟨⟩) (by rintro n' ⟨⟩)
  | .scalar .null => clean_of_parts (by rintro ⟨⟩) (by rintro ⟨⟩) (by rintro n' ⟨⟩)
  | .scalar (.bool _) => clean_iface_leaf rfl (by simp)
  | .scalar (.int _) => clean_iface_leaf rfl (by simp)
  | .scalar (.uint _) => clean_iface_leaf rfl (by simp)
  | .scalar (.float _) => clean_iface_leaf rfl (by simp)
  | .scalar (.str _) => clean_iface_leaf rfl (by simp)
  | .scalar (.ts _) => clean_iface_leaf rfl (by simp)
  | .arrNil => by
    refine clean_of_parts (by rintro ⟨⟩) (by rintro ⟨⟩) fun n' hp => ?_
    simp only [goOf] at hp
    cases hp
    refine clean_of_parts (by rintro ⟨⟩) (by rintro ⟨⟩) fun n' hp => ?_
    cases hp with
    | item _ _ _ _ x hx' => simp at hx'
  | .arr vs => by
    have hx := goOfL_clean text vs
    refine clean_of_parts (by rintro ⟨⟩) (by rintro ⟨⟩) fun n' hp => ?_
    simp only [goOf] at hp
    cases hp
    refine clean_of_parts (by rintro ⟨⟩) (by rintro ⟨⟩) fun n' hp => ?_
    cases hp with
    | item _ _ _ _ x hx' => exact hx x hx'
  | .objNil => by
    refine clean_of_parts (by rintro ⟨⟩) (by rintro ⟨⟩) fun n' hp => ?_
    simp only [goOf, stdVal] at hp
    cases hp with
    | value _ _ _ h => simp [GData.basic] at h
    | entry _ _ k x hx' => simp at hx'
  | .obj es => by
    have hx := goOfE_clean text es
    refine clean_of_parts (by rintro ⟨⟩) (by rintro ⟨⟩) fun n' hp => ?_
    simp only [goOf, stdVal] at hp
    cases hp with
    | value _ _ _ h => simp [GData.basic] at h
    | entry _ _ k x hx' => exact hx _ hx'
theorem goOfL_clean (text : GoTime → Bytes) : ∀ (vs : List Val), ∀ x ∈ goOfL text vs, Clean (.iface x)
  | [] => by simp [goOfL]
  | v :: vs => by
    simp only [goOfL, List.mem_cons, forall_eq_or_imp]
    exact ⟨goOf_clean text v, goOfL_clean text vs⟩
theorem goOfE_clean (text : GoTime → Bytes) : ∀ (es : List (Bytes × Val)), ∀ e ∈ goOfE text es, Clean (.iface e.2)
  | [] => by simp [goOfE]
  | (k, v) :: es => by
    simp only [goOfE, List.mem_cons, forall_eq_or_imp]
    exact ⟨goOf_clean text v, goOfE_clean text es⟩
end

theorem ts_back (t : BitVec 64) : BitVec.ofInt 64 (timeGoTime t.toInt).unixNano = t := by
  have hI : IsI64 t.toInt := ⟨by have := BitVec.le_toInt t; omega, by have := BitVec.toInt_lt (x := t); omega⟩
  rw [unixNano_goTime hI, BitVec.ofInt_toInt]

mutual
theorem valI_goOf (env : REnv) (text : GoTime → Bytes) : ∀ (v : Val), valI env (goOf text v) = v.tripped
  | .nilp => rfl
  | .scalar .null => rfl
  | .scalar (.bool _) => by simp [goOf, stdVal, valI, valV, valD, GData.basic, Val.tripped]
  | .scalar (.int _) => by simp [goOf, stdVal, valI, valV, valD, GData.basic, Val.tripped]
  | .scalar (.uint _) => by simp [goOf, stdVal, valI, valV, valD, GData.basic, Val.tripped]
  | .scalar (.float _) => by simp [goOf, stdVal, valI, valV, valD, GData.basic, Val.tripped]
  | .scalar (.str _) => by simp [goOf, stdVal, valI, valV, valD, GData.basic, Val.tripped]
  | .scalar (.ts t) => by simp [goOf, stdTime, valI, valV, valD, GData.basic, Val.tripped, ts_back]
  | .arrNil => by simp [goOf, valI, valV, valD, valL, GData.basic, Val.tripped]
  | .arr vs => by simp [goOf, valI, valV, valD, GData.basic, Val.tripped, valL_goOf env text vs]
  | .objNil => by simp [goOf, stdVal, valI, valV, valD, valE, GData.basic, Val.tripped, AMap.ofEntries]
  | .obj es => by simp [goOf, stdVal, valI, valV, valD, GData.basic, Val.tripped, valE_goOf env text es]
theorem valL_goOf (env : REnv) (text : GoTime → Bytes) : ∀ (vs : List Val), valL env (goOfL text vs) = Val.trippedL vs
  | [] => rfl
  | v :: vs => by simp only [goOfL, valL, Val.trippedL, valI_goOf env text v, valL_goOf env text vs]
theorem valE_goOf (env : REnv) (text : GoTime → Bytes) : ∀ (es : List (Bytes × Val)), valE env true (goOfE text es) = Val.trippedE es
  | [] => rfl
  | (k, v) :: es => by simp only [goOfE, valE, Val.trippedE, valI_goOf env text v, valE_goOf env text es, if_true]
end

mutual
theorem Val.tripped_same : ∀ (v : Val), v.Steady → v.tripped = v
  | .nilp, h => h.elim
  | .arrNil, h => h.elim
  | .objNil, h => h.elim
  | .scalar _, _ => rfl
  | .arr vs, h => by simp only [Val.tripped, Val.trippedL_same vs h]
  | .obj es, h => by simp only [Val.tripped, Val.trippedE_same es h.2, ofEntries_sorted h.1]
theorem Val.trippedL_same : ∀ (vs : List Val), Val.SteadyL vs → Val.trippedL vs = vs
  | [], _ => rfl
  | v :: vs, h => by simp only [Val.trippedL, Val.tripped_same v h.1, Val.trippedL_same vs h.2]
theorem Val.trippedE_same : ∀ (es : List (Bytes × Val)), Val.SteadyE es → Val.trippedE es = es
  | [], _ => rfl
  | (k, v) :: es, h => by simp only [Val.trippedE, escapeKey_plain h.1, Val.tripped_same v h.2.1, Val.trippedE_same es h.2.2]
end

/-- `ToEvent` of a map that `FromEvent` returns or encoding/json decodes. -/
theorem toEvent_goOf {env : REnv} {h : Heap} (hn : IsNull h env.nul) {order : List (Bytes × Ptr) → List (Bytes × Ptr)} (ho : ∀ l, (order l).Perm l) (text : GoTime → Bytes) {es : List (Bytes × Val)} (hs : AMap.Sorted es) :
    ∃ h' e', mapToEvent env order (goOfE text es) h = .ok (h', e') ∧ NewEvent h h' e' ∧ ∃ ts, ts.Perm (es.map fun x => (x.1, x.2.tripped)) ∧ Holds h' e' (putContents ts) := by
  have hnd : ((goOfE text es).map (·.1)).Nodup := by
    rw [goOfE_eq, List.map_map]
    exact AMap.sorted_nodup hs
  have hout := mapToEvent_outcome hn ho (goOfE text es) hnd
  cases hr : mapToEvent env order (goOfE text es) h with
  | unsupported =>
    rw [hr] at hout
    obtain ⟨x, hx, n, h1, h2⟩ := hout
    exact absurd h2 (goOfE_clean text es x hx n h1).1
  | panic =>
    rw [hr] at hout
    obtain ⟨x, hx, n, h1, h2⟩ := hout
    exact absurd h2 (goOfE_clean text es x hx n h1).2
  | ok r =>
    obtain ⟨h', e⟩ := r
    rw [hr] at hout
    obtain ⟨⟨f, ts, rfl, ow, hp, hh, hf, hfr⟩, _⟩ := hout
    refine ⟨h', _, rfl, ⟨f, rfl, ow, hf, hfr⟩, ts, ?_, hh⟩
    rw [goOfE_eq, List.map_map] at hp
    simpa only [Function.comp_def, valI_goOf] using hp

/-- With names that `Put` takes as they are, nothing is lost. -/
theorem putContents_tripped {es ts : List (Bytes × Val)} (hs : AMap.Sorted es) (hg : ∀ x ∈ es, GoodName x.1) (hp : ts.Perm (es.map fun x => (x.1, x.2.tripped))) :
    putContents ts = if es = [] then none else some (es.map fun x => (x.1, x.2.tripped)) := by
  have hs' : AMap.Sorted (AMap.mapVals Val.tripped es) := AMap.sorted_mapVals hs
  have := putContents_good (m := AMap.mapVals Val.tripped es) (fun e he => by
    obtain ⟨x, hx, rfl⟩ := List.mem_map.1 he
    exact hg x hx) (AMap.sorted_nodup hs') hp
  rw [this, ofEntries_sorted hs']
  cases es <;> simp [AMap.mapVals]

theorem tripped_all {es : List (Bytes × Val)} (h : ∀ x ∈ es, x.2.Steady) : (es.map fun x => (x.1, x.2.tripped)) = es := by
  conv => rhs; rw [← List.map_id es]
  exact List.map_congr_left fun x hx => by simp [Val.tripped_same x.2 (h x hx)]

/-- C81. `ToEvent(FromEvent(evt))` for any event: it succeeds, the result is a new event (nothing is shared with the old one, which is unchanged), and its contents are those of putting every field of the old one, changed as `Val.tripped` says, in some
order. If no top-level name is empty or contains a backslash, that is every field under its name; if there are also no nils inside and no dots in the names of inner objects, the contents are the same. -/
theorem event_map_event {env : REnv} {h : Heap} (hn : IsNull h env.nul) {order : List (Bytes × Ptr) → List (Bytes × Ptr)} (ho : ∀ l, (order l).Perm l) {text : GoTime → Bytes} {e : Event} {f : Fields}
    (hh : Holds h e f) (hs : AMap.Sorted (f.getD [])) :
    ∃ N m h' e', (∀ n, N ≤ n → mapFromEvent text n h e = some (.ok m)) ∧ mapToEvent env order (m.getD []) h = .ok (h', e') ∧ NewEvent h h' e' ∧
      (∃ ts, ts.Perm ((f.getD []).map fun x => (x.1, x.2.tripped)) ∧ Holds h' e' (putContents ts)) ∧
      ((∀ x ∈ f.getD [], GoodName x.1) → Holds h' e' (if f.getD [] = [] then none else some ((f.getD []).map fun x => (x.1, x.2.tripped)))) ∧
      ((∀ x ∈ f.getD [], GoodName x.1 ∧ x.2.Steady) → f ≠ some [] → Holds h' e' f) := by
  obtain ⟨N, hN⟩ := mapFromEvent_spec (text := text) hh
  obtain ⟨h', e', h1, h2, ts, h3, h4⟩ := toEvent_goOf hn ho text hs
  have key : (if f.getD [] = [] then none else some (goOfE text (f.getD []))).getD [] = goOfE text (f.getD []) := by
    split
    · next h0 => rw [h0]; rfl
    · rfl
  refine ⟨N, _, h', e', hN, by rw [key]; exact h1, h2, ⟨ts, h3, h4⟩, fun hg => ?_, fun hg hne => ?_⟩
  · rw [← putContents_tripped hs hg h3]
    exact h4
  · rw [putContents_tripped hs (fun x hx => (hg x hx).1) h3, tripped_all fun x hx => (hg x hx).2] at h4
    cases f with
    | none => exact h4
    | some es =>
      rw [if_neg (fun h0 => hne (by rw [show es = [] from h0]))] at h4
      exact h4

/-- C82: `json.Unmarshal` into a `map[string]interface{}` accepts the same texts as into an event. -/
theorem map_accepts_iff (env : JEnv) (bs : Bytes) (h : Heap) : (unmarshalMap env bs).isSome = (unmarshalEvent env bs h).isSome := by
  unfold unmarshalMap unmarshalEvent
  cases hp : parseDoc bs with
  | none => rfl
  | some j =>
    cases j with
    | obj es =>
      have i1 := decGE_spec env (fun _ => []) es []
      have hd := (parseDoc_iff.1 hp)
      have i2 := unmarshalEvent_object_spec (env := env) h hd.1 (by have := hd.2; simp only [depth] at this; omega)
      unfold unmarshalEvent at i2
      rw [hp] at i2
      simp only [] at i2 ⊢
      by_cases hr : InRangeE env es
      · obtain ⟨h', f, e, _⟩ := i2.2 hr
        rw [show decGE env es [] = _ from i1.2 hr, e]
        rfl
      · rw [i2.1 hr, show decGE env es [] = _ from i1.1 hr]
        rfl
    | _ => rfl

/-- C82. `ToEvent` of the map that `json.Unmarshal` makes of a text, compared with the event that it makes of the text. -/
theorem json_map_event {env : JEnv} {renv : REnv} {h : Heap} (hn : IsNull h renv.nul) {order : List (Bytes × Ptr) → List (Bytes × Ptr)} (ho : ∀ l, (order l).Perm l) {bs : Bytes} {m : Option (AMap GIface)}
    (hm : unmarshalMap env bs = some m) :
    ∃ h1 e1 f h' e', unmarshalEvent env bs h = some (h1, e1) ∧ Holds h1 e1 f ∧ mapToEvent renv order (m.getD []) h = .ok (h', e') ∧ NewEvent h h' e' ∧ (m = none ↔ f = none) ∧
      (∃ ts, ts.Perm ((f.getD []).map fun x => (x.1, x.2.tripped)) ∧ Holds h' e' (putContents ts)) ∧
      ((∀ x ∈ f.getD [], GoodName x.1) → Holds h' e' (if f.getD [] = [] then none else some ((f.getD []).map fun x => (x.1, x.2.tripped)))) ∧
      ((∀ x ∈ f.getD [], GoodName x.1 ∧ x.2.Steady) → f ≠ some [] → Holds h' e' f) := by
  unfold unmarshalMap at hm
  cases hp : parseDoc bs with
  | none => rw [hp] at hm; cases hm
  | some j =>
    rw [hp] at hm
    cases j with
    | null =>
      simp only [Option.some.injEq] at hm
      subst hm
      obtain ⟨h', e', h1, h2, ts, h3, h4⟩ := toEvent_goOf hn ho (fun _ => []) (es := []) (by simp [AMap.Sorted])
      have h5 := putContents_tripped (es := []) (by simp [AMap.Sorted]) (by simp) h3
      rw [h5] at h4
      exact ⟨h, none, none, h', e', by unfold unmarshalEvent; rw [hp], rfl, h1, h2, by simp, ⟨ts, h3, by rw [h5]; exact h4⟩, fun _ => h4, fun _ _ => h4⟩
    | obj es =>
      have hd := (parseDoc_iff.1 hp)
      have hdep : depthE es < 10000 := by have := hd.2; simp only [depth] at this; omega
      have i1 := decGE_spec env (fun _ => []) es []
      simp only [] at hm
      by_cases hr : InRangeE env es
      · rw [show decGE env es [] = _ from i1.2 hr] at hm
        simp only [Option.map_some, Option.some.injEq] at hm
        subst hm
        obtain ⟨h1, f, e1, ow, hc, _⟩ := unmarshalEvent_object env hd.1 hdep hr h
        have hsort : AMap.Sorted (AMap.ofEntries (jsonValE env es) []) := AMap.sorted_ofEntries AMap.sorted_nil
        obtain ⟨h', e', k1, k2, ts, k3, k4⟩ := toEvent_goOf hn ho (fun _ => []) hsort
        have hh := ow.holds
        rw [hc] at hh
        refine ⟨h1, _, _, h', e', e1, hh, k1, k2, by simp, ⟨ts, k3, k4⟩, fun hg => ?_, fun hg hne => ?_⟩
        · rw [putContents_tripped hsort hg k3] at k4
          exact k4
        · rw [putContents_tripped hsort (fun x hx => (hg x hx).1) k3, tripped_all (es := AMap.ofEntries (jsonValE env es) []) fun x hx => (hg x hx).2] at k4
          rwa [if_neg (fun h0 => hne (by rw [h0]))] at k4
      · rw [show decGE env es [] = _ from i1.1 hr] at hm
        cases hm
    | _ => cases hm

/-- A text with a null, a dotted name inside, and one of each other kind. -/
def tripText : Bytes := lit "{\"a\":{\"b.c\":null,\"d\":[true,\"x\"]},\"e.f\":\"y\"}"

def tripFields : AMap Val :=
  [(lit "a", .obj [(lit "b.c", .nilp), (lit "d", .arr [.scalar (.bool true), .scalar (.str (lit "x"))])]), (lit "e.f", .scalar (.str (lit "y")))]

example : (unmarshalMap bitsEnv tripText).isSome = true ∧ (∀ x ∈ tripFields, GoodName x.1) ∧ AMap.Sorted tripFields ∧
    (tripFields.map fun x => (x.1, x.2.tripped)) = [(lit "a", .obj [(lit "b\\.c", .scalar .null), (lit "d", .arr [.scalar (.bool true), .scalar (.str (lit "x"))])]), (lit "e.f", .scalar (.str (lit "y")))] := by
  refine ⟨by decide +kernel, by decide, by simp [tripFields, AMap.Sorted, lit, bLt], rfl⟩

/-- The same contents in two forms: a nil array is `null` in the JSON of the event and `[]` in that of the map. -/
example (text : GoTime → Bytes) : let h : Heap := [.cell (arrCell none), .map [(lit "a", some 0)]]
    Holds h (some 1) (some [(lit "a", .arrNil)]) ∧ marshalEvent bitsEnv 3 h (some 1) = .ok (lit "{\"a\":null}") ∧
    (mapFromEvent text 3 h (some 1)) = some (.ok (some [(lit "a", .val (.mk false {} (.list true [])))])) ∧
    marshalMap bitsEnv (some [(lit "a", .val (.mk false {} (.list true [])))]) = .ok (lit "{\"a\":[]}") := by
  refine ⟨⟨1, [(lit "a", some 0)], rfl, rfl, ?_⟩, by decide +kernel, rfl, by decide +kernel⟩
  exact ⟨rfl, by simp [Reads, deref], trivial⟩

end Sawmill
