import Verif.Spec.PbGet
import Verif.Props.Convert
/-!
# C91: reading messages with their getters, and writing them with `XXX_Marshal`
-/

namespace Sawmill
open Wire

/-! ## Getters on the message of a value -/

theorem atName_proto (k : Bytes) : ∀ es : List (Bytes × Val), atName (protoOfE es) k = protoOf ((AMap.lookup es k).getD .nilp)
  | [] => rfl
  | (k', v) :: es => by
    have ih := atName_proto k es
    simp only [atName, protoOfE, List.find?_cons, AMap.lookup] at ih ⊢
    by_cases h : k' = k
    · rw [if_pos h, show (k' == k) = true from beq_iff_eq.2 h]; rfl
    · rw [if_neg h, show (k' == k) = false from beq_eq_false_iff_ne.2 h]; exact ih

theorem item_proto : ∀ (vs : List Val) (i : Nat), (protoOfL vs)[i]?.getD .nil = protoOf (vs[i]?.getD .nilp)
  | [], _ => by simp [protoOfL, protoOf]
  | _ :: _, 0 => by simp [protoOfL]
  | _ :: vs, i + 1 => by simpa [protoOfL] using item_proto vs i

theorem protoOfL_length : ∀ vs : List Val, (protoOfL vs).length = vs.length
  | [] => rfl
  | _ :: vs => by simp [protoOfL, protoOfL_length vs]

theorem hasName_iff {α : Type} (m : List (Bytes × α)) (k : Bytes) : hasName m k = true ↔ k ∈ m.map Prod.fst := by
  simp [hasName, List.any_eq_true, List.mem_map]

theorem hasName_congr {α β : Type} {m : List (Bytes × α)} {m' : List (Bytes × β)} (h : ∀ k, k ∈ m.map Prod.fst ↔ k ∈ m'.map Prod.fst) : hasName m = hasName m' := by
  funext k
  rw [Bool.eq_iff_iff, hasName_iff, hasName_iff, h]

/-- What is read of the message of a value. -/
theorem proto_readings (v : Val) : (protoOf v).readings = v.readings := by
  cases v with
  | scalar s => cases s <;> rfl
  | nilp => rfl
  | arrNil => rfl
  | objNil => rfl
  | arr vs =>
    simp only [PValue.readings, Val.readings, protoOf, PValue.getKind, kindOf, PValue.getNull, PValue.getBoolean, PValue.getFloat, PValue.getInteger, PValue.getString, PValue.getTimestamp, PValue.getUnsigned,
      PValue.getArray, PValue.getObject, PArray.getItems, PObject.getFields, protoOfL_length, List.length_nil, Readings.mk.injEq, true_and]
    rfl
  | obj es =>
    simp only [PValue.readings, Val.readings, protoOf, PValue.getKind, kindOf, PValue.getNull, PValue.getBoolean, PValue.getFloat, PValue.getInteger, PValue.getString, PValue.getTimestamp, PValue.getUnsigned,
      PValue.getArray, PValue.getObject, PArray.getItems, PObject.getFields, List.length_nil, Readings.mk.injEq, true_and]
    refine ⟨?_, hasName_congr fun k => by rw [protoOfE_keys]⟩
    have := congrArg List.length (protoOfE_keys es)
    simpa using this

/-- One step in the message of a value. -/
theorem proto_step (v : Val) (s : PStep) : (protoOf v).step s = protoOf (v.step s) := by
  cases s with
  | name k =>
    cases v with
    | obj es => exact atName_proto k es
    | scalar s => cases s <;> rfl
    | _ => rfl
  | item i =>
    cases v with
    | arr vs => exact item_proto vs i
    | scalar s => cases s <;> simp [protoOf, PValue.step, PValue.getArray, PValue.getKind, PArray.getItems, Val.step]
    | _ => simp [protoOf, PValue.step, PValue.getArray, PValue.getKind, PArray.getItems, Val.step]

theorem proto_walk (path : List PStep) : ∀ v : Val, (protoOf v).walk path = protoOf (v.walk path) := by
  induction path with
  | nil => intro v; rfl
  | cons s path ih => intro v; simp only [PValue.walk, Val.walk]; rw [proto_step, ih]

theorem message_fields (f : Fields) : (getLogOf (some (messageOf f))).getObject.getFields = protoOfE (f.getD []) := by
  unfold messageOf
  match f.getD [] with
  | [] => rfl
  | _ :: _ => rfl

/-- C91: from the message of an event, the getters read the event: at every position - a top level name, and names and indices below it - they give the kind of the value that is there, its contents, and zero for
everything else; where there is nothing (or nil), all are zero, and none of them panics. -/
theorem getters_read {h : Heap} {e : Event} {f : Fields} (hh : Holds h e f) :
    ∃ N m, (∀ n, N ≤ n → fromEvent n h e = .ok m) ∧ (∀ k, hasName (getLogOf (some m)).getObject.getFields k = hasName (f.getD []) k) ∧
      ∀ k path, (walkMessage (some m) k path).readings = (Val.walk ((AMap.lookup (f.getD []) k).getD .nilp) path).readings := by
  obtain ⟨N, hN⟩ := fromEvent_spec hh
  refine ⟨N, _, hN, fun k => ?_, fun k path => ?_⟩
  · rw [message_fields]
    exact congrFun (hasName_congr fun k => by rw [protoOfE_keys]) k
  · rw [walkMessage, message_fields, atName_proto, proto_walk, proto_readings]

/-! ## After the message has been sent -/

theorem atName_mem {m : List (Bytes × PValue)} (hn : (m.map Prod.fst).Nodup) {k : Bytes} {v : PValue} (h : (k, v) ∈ m) : atName m k = v := by
  induction m with
  | nil => cases h
  | cons e m ih =>
    obtain ⟨k', v'⟩ := e
    simp only [List.map_cons, List.nodup_cons] at hn
    simp only [atName, List.find?_cons] at ih ⊢
    rcases List.mem_cons.1 h with h | h
    · cases h; simp
    · have hne : k' ≠ k := fun e => hn.1 (e ▸ List.mem_map.2 ⟨_, h, rfl⟩)
      rw [show (k' == k) = false from beq_eq_false_iff_ne.2 hne]
      exact ih hn.2 h

theorem atName_absent {m : List (Bytes × PValue)} {k : Bytes} (h : k ∉ m.map Prod.fst) : atName m k = .nil := by
  have : m.find? (fun e => e.1 == k) = none := by
    rw [List.find?_eq_none]
    intro e he hk
    exact h (List.mem_map.2 ⟨e, he, beq_iff_eq.1 hk⟩)
  simp [atName, this]

theorem sameEntries_mem : ∀ {es es' : List (Bytes × PValue)}, SameEntries es es' → ∀ {k : Bytes} {v : PValue}, (k, v) ∈ es → ∃ v', (k, v') ∈ es' ∧ SameValue v v'
  | [], _, _, _, _, h => by cases h
  | (k, v) :: es, w, h, k0, v0, hm => by
    simp only [SameEntries] at h
    obtain ⟨v', es', rfl, h1, h2⟩ := h
    rcases List.mem_cons.1 hm with hm | hm
    · cases hm; exact ⟨v', by simp, h1⟩
    · obtain ⟨v'', a, b⟩ := sameEntries_mem h2 hm
      exact ⟨v'', by simp [a], b⟩

/-- A field in a map and in the same map in another order. -/
theorem same_atName {es es' order : List (Bytes × PValue)} (hn : (es.map Prod.fst).Nodup) (h : SameEntries es es') (hp : es'.Perm order) (k : Bytes) : SameValue (atName es k) (atName order k) := by
  have hk := same_keys h
  have hn' : (order.map Prod.fst).Nodup := (hp.map Prod.fst).nodup_iff.1 (hk ▸ hn)
  by_cases hm : k ∈ es.map Prod.fst
  · obtain ⟨⟨k', v⟩, he, rfl⟩ := List.mem_map.1 hm
    obtain ⟨v', a, b⟩ := sameEntries_mem h he
    rw [atName_mem hn he, atName_mem hn' (hp.mem_iff.1 a)]
    exact b
  · rw [atName_absent hm, atName_absent (fun hc => hm (hk ▸ (hp.map Prod.fst).mem_iff.2 hc))]
    simp only [SameValue]

theorem same_items : ∀ {vs vs' : List PValue}, SameItems vs vs' → vs'.length = vs.length ∧ ∀ i : Nat, SameValue (vs[i]?.getD .nil) (vs'[i]?.getD .nil)
  | [], _, h => by simp only [SameItems] at h; subst h; exact ⟨rfl, fun i => by simp [SameValue]⟩
  | v :: vs, w, h => by
    simp only [SameItems] at h
    obtain ⟨v', vs', rfl, h1, h2⟩ := h
    obtain ⟨a, b⟩ := same_items h2
    refine ⟨by simp [a], fun i => ?_⟩
    cases i with
    | zero => simpa using h1
    | succ i => simpa using b i

/-- Nil, or a message that the encoding can represent. -/
def NilOrWf (v : PValue) : Prop := v = .nil ∨ WfValue UnknownFields v

theorem wf_atName {es : List (Bytes × PValue)} (h : WfFields UnknownFields es) (k : Bytes) : NilOrWf (atName es k) := by
  obtain ⟨h1, hn⟩ := (wfFields_iff UnknownFields es).1 h
  by_cases hm : k ∈ es.map Prod.fst
  · obtain ⟨⟨k', v⟩, he, rfl⟩ := List.mem_map.1 hm
    rw [atName_mem hn he]
    exact h1 _ he
  · exact .inl (atName_absent hm)

theorem wf_items : ∀ {vs : List PValue}, WfItems UnknownFields vs → ∀ i : Nat, NilOrWf (vs[i]?.getD .nil)
  | [], _, i => .inl (by simp)
  | v :: vs, h, 0 => by simp only [WfItems] at h; exact .inr (by simpa using h.1)
  | v :: vs, h, i + 1 => by simp only [WfItems] at h; simpa using wf_items h.2 i

theorem same_nil {v : PValue} (h : SameValue .nil v) : v = .nil := by simpa only [SameValue] using h

theorem same_refl_nil : SameValue .nil .nil := by simp only [SameValue]

/-- The order of the maps makes no difference to what is read, and to where a step leads. -/
theorem same_readings {v v' : PValue} (hs : SameValue v v') (hw : NilOrWf v) : v'.readings = v.readings ∧ ∀ s, SameValue (v.step s) (v'.step s) ∧ NilOrWf (v.step s) := by
  match v, hs with
  | .nil, hs => rw [same_nil hs]; exact ⟨rfl, fun s => ⟨by cases s <;> simp [SameValue, PValue.step, PValue.getArray, PValue.getKind, PArray.getItems, PValue.getObject, PObject.getFields, atName], .inl (by cases s <;> simp [PValue.step, PValue.getArray, PValue.getKind, PArray.getItems, PValue.getObject, PObject.getFields, atName])⟩⟩
  | .mk k u, hs =>
    have hw' : WfKind UnknownFields k := by
      rcases hw with h | h
      · cases h
      · simp only [WfValue] at h; exact h.1
    simp only [SameValue] at hs
    obtain ⟨k', rfl, hk⟩ := hs
    match k, hk, hw' with
    | .array (.mk items ua), hk, hw' =>
      simp only [SameKind] at hk
      obtain ⟨items', rfl, hi⟩ := hk
      obtain ⟨a, b⟩ := same_items hi
      refine ⟨?_, fun s => ?_⟩
      · simp only [PValue.readings, PValue.getKind, kindOf, PValue.getNull, PValue.getBoolean, PValue.getFloat, PValue.getInteger, PValue.getString, PValue.getTimestamp, PValue.getUnsigned, PValue.getArray, PValue.getObject,
          PArray.getItems, PObject.getFields, a]
      · cases s with
        | name k => exact ⟨by simp [PValue.step, PValue.getObject, PValue.getKind, PObject.getFields, atName, SameValue], .inl rfl⟩
        | item i => exact ⟨b i, wf_items hw'.1 i⟩
    | .object (.mk fields uo), hk, hw' =>
      simp only [SameKind] at hk
      obtain ⟨fields', order, rfl, he, hp⟩ := hk
      have hn : (fields.map Prod.fst).Nodup := ((wfFields_iff UnknownFields fields).1 hw'.1).2
      have hkeys := same_keys he
      refine ⟨?_, fun s => ?_⟩
      · simp only [PValue.readings, PValue.getKind, kindOf, PValue.getNull, PValue.getBoolean, PValue.getFloat, PValue.getInteger, PValue.getString, PValue.getTimestamp, PValue.getUnsigned, PValue.getArray, PValue.getObject,
          PArray.getItems, PObject.getFields, Readings.mk.injEq, true_and]
        refine ⟨?_, hasName_congr fun k => ?_⟩
        · have := congrArg List.length hkeys
          simp only [List.length_map] at this
          rw [← this, hp.length_eq]
        · rw [← hkeys, (hp.map Prod.fst).mem_iff]
      · cases s with
        | name k => exact ⟨same_atName hn he hp k, wf_atName hw'.1 k⟩
        | item i => exact ⟨by simp [PValue.step, PValue.getArray, PValue.getKind, PArray.getItems, SameValue], .inl (by simp [PValue.step, PValue.getArray, PValue.getKind, PArray.getItems])⟩
    | .array .nil, hk, hw' => exact (by simpa only [WfKind] using hw')
    | .object .nil, hk, hw' => exact (by simpa only [WfKind] using hw')
    | .unset, hk, _ => simp only [SameKind] at hk; subst hk; exact ⟨rfl, fun s => by cases s <;> exact ⟨by simp [PValue.step, PValue.getArray, PValue.getKind, PArray.getItems, PValue.getObject, PObject.getFields, atName, SameValue], .inl (by simp [PValue.step, PValue.getArray, PValue.getKind, PArray.getItems, PValue.getObject, PObject.getFields, atName])⟩⟩
    | .null _, hk, _ => simp only [SameKind] at hk; subst hk; exact ⟨rfl, fun s => by cases s <;> exact ⟨by simp [PValue.step, PValue.getArray, PValue.getKind, PArray.getItems, PValue.getObject, PObject.getFields, atName, SameValue], .inl (by simp [PValue.step, PValue.getArray, PValue.getKind, PArray.getItems, PValue.getObject, PObject.getFields, atName])⟩⟩
    | .boolean _, hk, _ => simp only [SameKind] at hk; subst hk; exact ⟨rfl, fun s => by cases s <;> exact ⟨by simp [PValue.step, PValue.getArray, PValue.getKind, PArray.getItems, PValue.getObject, PObject.getFields, atName, SameValue], .inl (by simp [PValue.step, PValue.getArray, PValue.getKind, PArray.getItems, PValue.getObject, PObject.getFields, atName])⟩⟩
    | .float _, hk, _ => simp only [SameKind] at hk; subst hk; exact ⟨rfl, fun s => by cases s <;> exact ⟨by simp [PValue.step, PValue.getArray, PValue.getKind, PArray.getItems, PValue.getObject, PObject.getFields, atName, SameValue], .inl (by simp [PValue.step, PValue.getArray, PValue.getKind, PArray.getItems, PValue.getObject, PObject.getFields, atName])⟩⟩
    | .integer _, hk, _ => simp only [SameKind] at hk; subst hk; exact ⟨rfl, fun s => by cases s <;> exact ⟨by simp [PValue.step, PValue.getArray, PValue.getKind, PArray.getItems, PValue.getObject, PObject.getFields, atName, SameValue], .inl (by simp [PValue.step, PValue.getArray, PValue.getKind, PArray.getItems, PValue.getObject, PObject.getFields, atName])⟩⟩
    | .string _, hk, _ => simp only [SameKind] at hk; subst hk; exact ⟨rfl, fun s => by cases s <;> exact ⟨by simp [PValue.step, PValue.getArray, PValue.getKind, PArray.getItems, PValue.getObject, PObject.getFields, atName, SameValue], .inl (by simp [PValue.step, PValue.getArray, PValue.getKind, PArray.getItems, PValue.getObject, PObject.getFields, atName])⟩⟩
    | .timestamp _, hk, _ => simp only [SameKind] at hk; subst hk; exact ⟨rfl, fun s => by cases s <;> exact ⟨by simp [PValue.step, PValue.getArray, PValue.getKind, PArray.getItems, PValue.getObject, PObject.getFields, atName, SameValue], .inl (by simp [PValue.step, PValue.getArray, PValue.getKind, PArray.getItems, PValue.getObject, PObject.getFields, atName])⟩⟩
    | .unsigned _, hk, _ => simp only [SameKind] at hk; subst hk; exact ⟨rfl, fun s => by cases s <;> exact ⟨by simp [PValue.step, PValue.getArray, PValue.getKind, PArray.getItems, PValue.getObject, PObject.getFields, atName, SameValue], .inl (by simp [PValue.step, PValue.getArray, PValue.getKind, PArray.getItems, PValue.getObject, PObject.getFields, atName])⟩⟩

theorem same_walk (path : List PStep) : ∀ {v v' : PValue}, SameValue v v' → NilOrWf v → (v'.walk path).readings = (v.walk path).readings := by
  induction path with
  | nil => intro v v' hs hw; exact (same_readings hs hw).1
  | cons s path ih =>
    intro v v' hs hw
    have := (same_readings hs hw).2 s
    exact ih this.1 this.2

/-- C91: the same is read at the other end: the message is encoded, in whatever order the maps are iterated, and decoded, and the getters of the message that comes out read the event. (Nil pointers in arrays cannot be sent.) -/
theorem getters_read_sent {h : Heap} {e : Event} {f : Fields} (hh : Holds h e f) (hs : AMap.Sorted (f.getD [])) (hc : Val.CanonE (f.getD [])) (hso : Val.SolidE (f.getD []))
    (hsize : sizeWrapper (messageOf f) < 2 ^ 63 - 8) :
    ∃ N m, (∀ n, N ≤ n → fromEvent n h e = .ok m) ∧ ∀ m', SameMessage m m' → ∃ bs m'', marshal m' = .ok bs ∧ unmarshal bs = .ok m'' ∧
      (∀ k, hasName (getLogOf (some m'')).getObject.getFields k = hasName (f.getD []) k) ∧
      ∀ k path, (walkMessage (some m'') k path).readings = (Val.walk ((AMap.lookup (f.getD []) k).getD .nilp) path).readings := by
  obtain ⟨N, hN⟩ := fromEvent_spec hh
  refine ⟨N, _, hN, fun m' hm => ?_⟩
  obtain ⟨w1, -, -⟩ := proto_wfE (f.getD []) hso hs hc
  have hwf : WfWrapper UnknownFields (messageOf f) := by
    unfold messageOf
    match hf : f.getD [] with
    | [] => exact ⟨by rintro _ ⟨⟩; exact ⟨trivial, .nil⟩, .nil⟩
    | x :: es => rw [hf] at w1; exact ⟨by rintro _ ⟨⟩; exact ⟨⟨w1, .nil⟩, .nil⟩, .nil⟩
  have hsize' := hsize
  rw [← size_order_independent hm] at hsize'
  obtain ⟨bs, b1, b2⟩ := wire_round_trip ((same_inv hm).2 hwf) hsize'
  refine ⟨bs, m', b1, b2, ?_⟩
  -- the fields of the message that comes out
  have hfields : ∃ es' , SameEntries (protoOfE (f.getD [])) es' ∧ es'.Perm (getLogOf (some m')).getObject.getFields := by
    obtain ⟨_, hm2⟩ := hm
    unfold messageOf at hm2
    match hf : f.getD [] with
    | [] =>
      rw [hf] at hm2
      obtain ⟨l', hl', hsame⟩ := hm2
      simp only [SameLog] at hsame
      refine ⟨[], by simp only [protoOfE, SameEntries], ?_⟩
      simp only [getLogOf, getMessage, hl', hsame, PLog.getObject, PObject.getFields]
      exact .refl _
    | x :: es =>
      rw [hf] at hm2
      obtain ⟨l', hl', hsame⟩ := hm2
      simp only [SameLog] at hsame
      obtain ⟨fields', order, rfl, p1, p2⟩ := hsame
      refine ⟨fields', p1, ?_⟩
      simp only [getLogOf, getMessage, hl', PLog.getObject, PObject.getFields]
      exact p2
  obtain ⟨es', p1, p2⟩ := hfields
  have hn : ((protoOfE (f.getD [])).map Prod.fst).Nodup := ((wfFields_iff UnknownFields _).1 w1).2
  refine ⟨fun k => ?_, fun k path => ?_⟩
  · exact congrFun (hasName_congr fun k => by rw [← (p2.map Prod.fst).mem_iff, same_keys p1, protoOfE_keys]) k
  · rw [walkMessage, same_walk path (same_atName hn p1 p2 k) (wf_atName w1 k), atName_proto, proto_walk, proto_readings]

/-! ## The readings determine the value -/

theorem walk_nilp (path : List PStep) : Val.walk .nilp path = .nilp := by
  induction path with
  | nil => rfl
  | cons s path ih => cases s <;> exact ih

/-- Everything that is read below two values is the same. -/
def ReadAlike (v w : Val) : Prop := ∀ path, (v.walk path).readings = (w.walk path).readings

theorem ReadAlike.below {v w : Val} (h : ReadAlike v w) (s : PStep) : ReadAlike (v.step s) (w.step s) := fun path => h (s :: path)

theorem lookup_has {α : Type} (m : AMap α) (k : Bytes) : (AMap.lookup m k).isSome = hasName m k := by
  induction m with
  | nil => rfl
  | cons e m ih =>
    obtain ⟨k', v⟩ := e
    simp only [AMap.lookup, hasName, List.any_cons] at ih ⊢
    by_cases h : k' = k
    · rw [if_pos h, show (k' == k) = true from beq_iff_eq.2 h]; rfl
    · rw [if_neg h, show (k' == k) = false from beq_eq_false_iff_ne.2 h, Bool.false_or]; exact ih

theorem canonE_lookup : ∀ {es : List (Bytes × Val)} {k : Bytes} {v : Val}, Val.CanonE es → Val.MadeE es → AMap.lookup es k = some v → v.Canon ∧ v.Made
  | [], _, _, _, _, h => by cases h
  | (k', v') :: es, k, v, hc, hm, h => by
    simp only [AMap.lookup] at h
    simp only [Val.CanonE, Val.MadeE] at hc hm
    split at h
    · cases h; exact ⟨hc.1, hm.1⟩
    · exact canonE_lookup hc.2 hm.2 h

theorem scalar_readings {s t : Scalar} (h : (Val.scalar s).readings = (Val.scalar t).readings) : s = t := by
  cases s <;> cases t <;> simp [Val.readings] at h ⊢ <;> exact h

theorem kinds_differ {v w : Val} (h : v.readings = w.readings) : v.readings.kind = w.readings.kind := congrArg Readings.kind h

mutual
theorem alike_eq : ∀ (v : Val), v.Canon → v.Made → ∀ w : Val, w.Canon → w.Made → ReadAlike v w → v = w
  | .nilp, _, _, w, _, hm, h => by
    have := kinds_differ (h [])
    cases w with
    | nilp => rfl
    | scalar s => cases s <;> simp [Val.walk, Val.readings] at this
    | _ => simp [Val.walk, Val.readings] at this
  | .scalar s, _, _, w, _, hm, h => by
    cases w with
    | scalar t => rw [scalar_readings (h [])]
    | nilp => have := kinds_differ (h []); cases s <;> simp [Val.walk, Val.readings] at this
    | arr => have := kinds_differ (h []); cases s <;> simp [Val.walk, Val.readings] at this
    | obj => have := kinds_differ (h []); cases s <;> simp [Val.walk, Val.readings] at this
    | arrNil => exact hm.elim
    | objNil => exact hm.elim
  | .arrNil, _, hm, _, _, _, _ => hm.elim
  | .objNil, _, hm, _, _, _, _ => hm.elim
  | .arr vs, hc, hm, w, hc', hm', h => by
    have h0 := kinds_differ (h [])
    cases w with
    | arr ws =>
      have hlen : vs.length = ws.length := congrArg Readings.items (h [])
      simp only [Val.Canon, Val.Made] at hc hm hc' hm'
      rw [alike_eqL vs hc hm ws hc' hm' hlen fun i => h.below (.item i)]
    | scalar s => cases s <;> simp [Val.walk, Val.readings] at h0
    | arrNil => exact hm'.elim
    | objNil => exact hm'.elim
    | _ => simp [Val.walk, Val.readings] at h0
  | .obj es, hc, hm, w, hc', hm', h => by
    have h0 := kinds_differ (h [])
    cases w with
    | obj fs =>
      have hhas : hasName es = hasName fs := congrArg Readings.has (h [])
      simp only [Val.Canon, Val.Made] at hc hm hc' hm'
      have key := alike_eqE es hc.2 hm
      have : es = fs := by
        refine AMap.ext hc.1 hc'.1 fun k => ?_
        have hk : (AMap.lookup es k).isSome = (AMap.lookup fs k).isSome := by rw [lookup_has, lookup_has, hhas]
        match h1 : AMap.lookup es k, h2 : AMap.lookup fs k with
        | none, none => rfl
        | none, some _ => rw [h1, h2] at hk; cases hk
        | some _, none => rw [h1, h2] at hk; cases hk
        | some a, some b =>
          obtain ⟨hb, hb'⟩ := canonE_lookup hc'.2 hm' h2
          have hr : ReadAlike a b := by
            have := h.below (.name k)
            simpa only [Val.step, h1, h2, Option.getD_some] using this
          rw [key k a h1 b hb hb' hr]
      rw [this]
    | scalar s => cases s <;> simp [Val.walk, Val.readings] at h0
    | arrNil => exact hm'.elim
    | objNil => exact hm'.elim
    | _ => simp [Val.walk, Val.readings] at h0
theorem alike_eqL : ∀ (vs : List Val), Val.CanonL vs → Val.MadeL vs → ∀ ws : List Val, Val.CanonL ws → Val.MadeL ws → vs.length = ws.length →
    (∀ i : Nat, ReadAlike (vs[i]?.getD .nilp) (ws[i]?.getD .nilp)) → vs = ws
  | [], _, _, ws, _, _, hl, _ => by cases ws with | nil => rfl | cons => cases hl
  | v :: vs, hc, hm, ws, hc', hm', hl, h => by
    cases ws with
    | nil => cases hl
    | cons w ws =>
      simp only [Val.CanonL, Val.MadeL] at hc hm hc' hm'
      have h0 := alike_eq v hc.1 hm.1 w hc'.1 hm'.1 (by simpa using h 0)
      have hs := alike_eqL vs hc.2 hm.2 ws hc'.2 hm'.2 (by simpa using hl) (fun i => by simpa using h (i + 1))
      rw [h0, hs]
theorem alike_eqE : ∀ (es : List (Bytes × Val)), Val.CanonE es → Val.MadeE es → ∀ k v, AMap.lookup es k = some v → ∀ w : Val, w.Canon → w.Made → ReadAlike v w → v = w
  | [], _, _, _, _, hl, _, _, _, _ => by cases hl
  | (k', v') :: es, hc, hm, k, v, hl, w, hc', hm', h => by
    simp only [Val.CanonE, Val.MadeE] at hc hm
    simp only [AMap.lookup] at hl
    have h1 := alike_eq v' hc.1 hm.1 w hc' hm'
    have h2 := alike_eqE es hc.2 hm.2 k v
    split at hl
    · cases hl; exact h1 h
    · exact h2 hl w hc' hm' h
end

/-- C91: nothing is lost to the getters: if they read the same everywhere in the messages of two events, the events hold the same (up to the difference between nil and empty slices and maps). `GetKind` is needed: see
`zero_or_absent`. -/
theorem getters_determine {h h' : Heap} {e e' : Event} {es es' : AMap Val} (hh : Holds h e (some es)) (hh' : Holds h' e' (some es')) (hs : AMap.Sorted es) (hc : Val.CanonE es) (hm : Val.MadeE es)
    (hs' : AMap.Sorted es') (hc' : Val.CanonE es') (hm' : Val.MadeE es') {N : Nat} {m m' : PWrapper} (hN : ∀ n, N ≤ n → fromEvent n h e = .ok m ∧ fromEvent n h' e' = .ok m')
    (hn : ∀ k, hasName (getLogOf (some m)).getObject.getFields k = hasName (getLogOf (some m')).getObject.getFields k)
    (hr : ∀ k path, (walkMessage (some m) k path).readings = (walkMessage (some m') k path).readings) : es = es' := by
  obtain ⟨M, m0, a1, a2, a3⟩ := getters_read hh
  obtain ⟨M', m0', b1, b2, b3⟩ := getters_read hh'
  have e1 : m0 = m := by
    have x := a1 (max N M) (Nat.le_max_right ..)
    rw [(hN (max N M) (Nat.le_max_left ..)).1] at x
    exact (UOut.ok.inj x).symm
  have e2 : m0' = m' := by
    have x := b1 (max N M') (Nat.le_max_right ..)
    rw [(hN (max N M') (Nat.le_max_left ..)).2] at x
    exact (UOut.ok.inj x).symm
  subst e1 e2
  refine AMap.ext hs hs' fun k => ?_
  have hk : (AMap.lookup es k).isSome = (AMap.lookup es' k).isSome := by
    have := hn k
    rw [a2, b2] at this
    rw [lookup_has, lookup_has]
    exact this
  match h1 : AMap.lookup es k, h2 : AMap.lookup es' k with
  | none, none => rfl
  | none, some _ => rw [h1, h2] at hk; cases hk
  | some _, none => rw [h1, h2] at hk; cases hk
  | some a, some b =>
    obtain ⟨hb, hb'⟩ := canonE_lookup hc' hm' h2
    have hra : ReadAlike a b := fun path => by
      have := hr k path
      rw [a3, b3] at this
      simpa only [Option.getD_some, h1, h2] using this
    rw [alike_eqE es hc hm k a h1 b hb hb' hra]

/-- C91: without `GetKind` it is not so: apart from it, all the getters give the same for false, 0, the time 0, a null, an empty array, an empty object and for nothing at all. -/
theorem zero_or_absent : ∀ v ∈ [Val.scalar .null, .scalar (.bool false), .scalar (.int 0), .scalar (.uint 0), .scalar (.float 0), .scalar (.ts 0), .arr [], .arrNil, .obj [], .objNil],
    { v.readings with kind := none } = Val.nilp.readings := by
  have h0 : hasName ([] : List (Bytes × Val)) = fun _ => false := rfl
  intro v hv
  simp only [List.mem_cons, List.not_mem_nil, or_false] at hv
  rcases hv with rfl | rfl | rfl | rfl | rfl | rfl | rfl | rfl | rfl | rfl <;> rfl

/-- C91: no getter of a nil message panics, and the chain from a nil wrapper reads nothing. -/
theorem nil_reads_nothing (k : Bytes) (path : List PStep) : (walkMessage none k path).readings = {} ∧ PValue.nil.readings = {} := by
  refine ⟨?_, rfl⟩
  have : (protoOf .nilp).walk path = protoOf .nilp := by rw [proto_walk, walk_nilp]
  show ((protoOf .nilp).walk path).readings = {}
  rw [this]
  rfl

/-! ## `XXX_Marshal` -/

theorem xxx_of_eq {marshal : Bytes → Nat → Nat → Res (Bytes × Nat)} {enc : Bytes} (hm : ∀ {mem : Bytes} {a : Nat}, a + enc.length ≤ mem.length → marshal mem 0 (a + enc.length) = .ok (writeAt mem a enc, enc.length))
    {array : Bytes} (h : enc.length ≤ array.length) : xxxMarshalWith marshal array = .ok ((array.take (array.length - enc.length) ++ enc).take enc.length) := by
  unfold xxxMarshalWith
  have e : array.length = (array.length - enc.length) + enc.length := by omega
  have := hm (mem := array) (a := array.length - enc.length) (by omega)
  rw [← e] at this
  rw [this, Res.bind_ok]
  simp only [writeAt]
  rw [← e, List.drop_length, List.append_nil]

theorem marshal_of_eq {marshal : Bytes → Nat → Nat → Res (Bytes × Nat)} {enc : Bytes} (hm : ∀ {mem : Bytes} {a : Nat}, a + enc.length ≤ mem.length → marshal mem 0 (a + enc.length) = .ok (writeAt mem a enc, enc.length)) :
    marshalWith enc.length marshal = .ok enc := by
  have := xxx_of_eq hm (array := List.replicate enc.length 0) (by simp)
  unfold xxxMarshalWith at this
  rw [List.length_replicate] at this
  unfold marshalWith
  rw [this]
  simp

theorem marshalArray_eq {items : List PValue} (u : Bytes) (h : NoNilItems items) {mem : Bytes} {a : Nat} (hm : a + (encItems items ++ u).length ≤ mem.length) :
    marshalArray (.mk items u) mem 0 (a + (encItems items ++ u).length) = .ok (writeAt mem a (encItems items ++ u), (encItems items ++ u).length) := by
  rw [List.length_append] at hm ⊢
  rw [marshalArray, ← Nat.add_assoc, pushBytes_eq (by omega) (by omega), Res.bind_ok]
  dsimp only
  have l1 : (writeAt mem (0 + (a + (encItems items).length)) u).length = mem.length := writeAt_length (by omega)
  rw [marshalItems_eq items h (by omega) (by omega), Res.bind_ok]
  dsimp only
  rw [writeAt_prepend' (by omega) (by omega)]
  congr 2
  · simp
  · omega

theorem marshalObject_eq {fields : List (Bytes × PValue)} (u : Bytes) (h : NoNilFields fields) {mem : Bytes} {a : Nat} (hm : a + (encFields fields ++ u).length ≤ mem.length) :
    marshalObject (.mk fields u) mem 0 (a + (encFields fields ++ u).length) = .ok (writeAt mem a (encFields fields ++ u), (encFields fields ++ u).length) := by
  rw [List.length_append] at hm ⊢
  rw [marshalObject, ← Nat.add_assoc, pushBytes_eq (by omega) (by omega), Res.bind_ok]
  dsimp only
  have l1 : (writeAt mem (0 + (a + (encFields fields).length)) u).length = mem.length := writeAt_length (by omega)
  rw [marshalFields_eq fields h (by omega) (by omega), Res.bind_ok]
  dsimp only
  rw [writeAt_prepend' (by omega) (by omega)]
  congr 2
  · simp
  · omega

theorem marshalWrapper_eq {m : PWrapper} (h : NoNil m) {mem : Bytes} {a : Nat} (hm : a + (encWrapper m).length ≤ mem.length) :
    marshalWrapper m mem 0 (a + (encWrapper m).length) = .ok (writeAt mem a (encWrapper m), (encWrapper m).length) := by
  match m with
  | ⟨none, u⟩ =>
    simp only [encWrapper] at *
    rw [marshalWrapper]
    dsimp only
    rw [pushBytes_eq (by omega) (by omega), Res.bind_ok]
    dsimp only
    congr 2
    · simp
    · omega
  | ⟨some .nil, u⟩ =>
    simp only [encWrapper] at *
    rw [marshalWrapper]
    dsimp only
    rw [pushBytes_eq (by omega) (by omega), Res.bind_ok]
    simp only [sizeLogField, marshalLogField, PLog.isNil, if_true, Nat.not_lt_zero, if_false, Res.bind_ok, Nat.sub_zero]
    congr 2
    · simp
    · omega
  | ⟨some (.mk o w), u⟩ =>
    have e0 : encWrapper ⟨some (.mk o w), u⟩ = lenField 1 (encLog (.mk o w)) ++ u := rfl
    have hno : ∀ fs w' u', PLog.mk o w = .mk (.mk fs w') u' → NoNilFields fs := by
      rintro fs w' u' ⟨⟩
      exact h
    have hnil : PLog.mk o w ≠ .nil := by simp
    have hlf : sizeLogField (.mk o w) = 1 + (varint (encLog (.mk o w)).length).length + (encLog (.mk o w)).length := by
      simp only [sizeLogField, PLog.isNil, Bool.false_eq_true, if_false, sizeLog_eq, sov_eq]; omega
    have hmf : ∀ mem off len, marshalLogField (.mk o w) mem off len = (do
        let (mem, size) ← marshalLog (.mk o w) mem off len
        let (mem, _) ← pushHeader off len 0xa size mem len
        .ok mem) := fun _ _ _ => rfl
    rw [e0] at hm ⊢
    clear h e0
    generalize PLog.mk o w = l at *
    have hlen := lenField_length (show 1 < 15 by omega) (encLog l)
    rw [List.length_append, hlen] at hm ⊢
    have hlen' : lenField 1 (encLog l) = [0xa] ++ varint (encLog l).length ++ encLog l := lenField_eq (by omega) _
    rw [marshalWrapper]
    dsimp only
    rw [← Nat.add_assoc, pushBytes_eq (by omega) (by omega), Res.bind_ok]
    dsimp only
    have l1 : (writeAt mem (0 + (a + (1 + (varint (encLog l).length).length + (encLog l).length))) u).length = mem.length := writeAt_length (by omega)
    rw [hlf, if_neg (by omega), Nat.add_sub_cancel, hmf, marshalLog_eq hnil hno (by omega), Res.bind_ok]
    dsimp only
    rw [headerKind_eq (by omega), Res.bind_ok, ← hlen', writeAt_prepend' (by omega) (by omega)]
    congr 2
    · simp
    · omega

/-- What `Marshal` of each kind of message returns, when it does not panic (`marshal_exact` is about whole messages). -/
inductive Encodes : {α : Type} → α → (Bytes → Res Bytes) → Bytes → Prop
  | wrapper {m : PWrapper} : NoNil m → Encodes m m.xxxMarshal (encWrapper m)
  | log {m : PLog} : m ≠ .nil → (∀ fs w u, m = .mk (.mk fs w) u → NoNilFields fs) → Encodes m m.xxxMarshal (encLog m)
  | value {m : PValue} : NoNilValue m → Encodes m m.xxxMarshal (encValue m)
  | array {items : List PValue} {u : Bytes} : NoNilItems items → Encodes (PArray.mk items u) (PArray.mk items u).xxxMarshal (encItems items ++ u)
  | object {fields : List (Bytes × PValue)} {u : Bytes} : NoNilFields fields → Encodes (PObject.mk fields u) (PObject.mk fields u).xxxMarshal (encFields fields ++ u)

/-- C91: `XXX_Marshal` of any kind of message, into an array that is large enough: the encoding is written to the end of the array, and the first bytes of the array are returned, as many as the encoding has. -/
theorem xxx_marshal {α : Type} {m : α} {xxx : Bytes → Res Bytes} {enc : Bytes} (h : Encodes m xxx enc) {array : Bytes} (hl : enc.length ≤ array.length) :
    xxx array = .ok ((array.take (array.length - enc.length) ++ enc).take enc.length) := by
  cases h with
  | wrapper h => exact xxx_of_eq (fun hm => marshalWrapper_eq h hm) hl
  | log h1 h2 => exact xxx_of_eq (fun {mem a} hm => by have := marshalLog_eq h1 h2 (mem := mem) (off := 0) (a := a) (by omega); rw [Nat.zero_add] at this; exact this) hl
  | value h => exact xxx_of_eq (fun {mem a} hm => by have := marshalValue_eq _ h (mem := mem) (off := 0) (a := a) (by omega); rw [Nat.zero_add] at this; exact this) hl
  | array h => exact xxx_of_eq (fun hm => marshalArray_eq _ h hm) hl
  | object h => exact xxx_of_eq (fun hm => marshalObject_eq _ h hm) hl

/-- C91: that is the encoding if the capacity is `Size()`, as the callers in the protobuf library see to. -/
theorem xxx_marshal_exact {α : Type} {m : α} {xxx : Bytes → Res Bytes} {enc : Bytes} (h : Encodes m xxx enc) {array : Bytes} (hl : array.length = enc.length) : xxx array = .ok enc := by
  rw [xxx_marshal h (by omega), hl]
  simp

/-- C91: with a capacity of at least twice `Size()` the bytes returned are those that were in the array before: they have nothing to do with the message. -/
theorem xxx_marshal_roomy {α : Type} {m : α} {xxx : Bytes → Res Bytes} {enc : Bytes} (h : Encodes m xxx enc) {array : Bytes} (hl : 2 * enc.length ≤ array.length) : xxx array = .ok (array.take enc.length) := by
  rw [xxx_marshal h (by omega), List.take_append_of_le_length (by rw [List.length_take]; omega), List.take_take]
  congr 2
  omega

/-- C91: the parts of a message can be encoded by themselves: `Marshal` of each returns what it contributes to the whole. -/
theorem marshal_parts : (∀ m : PValue, NoNilValue m → m.marshal = .ok (encValue m)) ∧ (∀ (items : List PValue) (u : Bytes), NoNilItems items → (PArray.mk items u).marshal = .ok (encItems items ++ u)) ∧
    (∀ (fields : List (Bytes × PValue)) (u : Bytes), NoNilFields fields → (PObject.mk fields u).marshal = .ok (encFields fields ++ u)) ∧
    (∀ m : PLog, m ≠ .nil → (∀ fs w u, m = .mk (.mk fs w) u → NoNilFields fs) → m.marshal = .ok (encLog m)) := by
  refine ⟨fun m h => ?_, fun items u h => ?_, fun fields u h => ?_, fun m h1 h2 => ?_⟩
  · rw [PValue.marshal, sizeValue_eq]
    exact marshal_of_eq (fun {mem a} hm => by have := marshalValue_eq _ h (mem := mem) (off := 0) (a := a) (by omega); rw [Nat.zero_add] at this; exact this)
  · rw [PArray.marshal, show sizeArray (.mk items u) = (encItems items ++ u).length by simp only [sizeArray, sizeItems_eq, List.length_append]]
    exact marshal_of_eq (fun hm => marshalArray_eq _ h hm)
  · rw [PObject.marshal, show sizeObject (.mk fields u) = (encFields fields ++ u).length by simp only [sizeObject, sizeFields_eq, List.length_append]]
    exact marshal_of_eq (fun hm => marshalObject_eq _ h hm)
  · rw [PLog.marshal, sizeLog_eq]
    exact marshal_of_eq (fun {mem a} hm => by have := marshalLog_eq h1 h2 (mem := mem) (off := 0) (a := a) (by omega); rw [Nat.zero_add] at this; exact this)

theorem pushBytes_panics {off len : Nat} {src mem : Bytes} {i : Nat} (h : i < src.length) : pushBytes off len src mem i = .panic := by
  unfold pushBytes
  rw [if_pos h]

/-- C91: into an array that is too small: a panic. -/
theorem xxx_marshal_small (m : PWrapper) {array : Bytes} (h : array.length < sizeWrapper m) : m.xxxMarshal array = .panic := by
  unfold PWrapper.xxxMarshal xxxMarshalWith marshalWrapper
  by_cases hu : array.length < m.unrec.length
  · rw [pushBytes_panics hu]; rfl
  · have hp : ∃ mem, pushBytes 0 array.length m.unrec array array.length = .ok (mem, array.length - m.unrec.length) := by
      have := pushBytes_eq (mem := array) (off := 0) (len := array.length) (j := array.length - m.unrec.length) (src := m.unrec) (by omega) (by omega)
      rw [Nat.sub_add_cancel (by omega)] at this
      exact ⟨_, this⟩
    obtain ⟨mem, hp⟩ := hp
    rw [hp, Res.bind_ok]
    unfold sizeWrapper at h
    match hm : m.message with
    | none => rw [hm] at h; simp only at h; omega
    | some l =>
      rw [hm] at h
      simp only at h ⊢
      rw [if_pos (by omega)]
      rfl

/-! ## Samples -/

/-- C91: the hypotheses of `getters_read_sent` and `getters_determine` are met by an event with values of many kinds. -/
theorem getters_sample : Holds sampleHeap.1 (AFields.event sampleHeap.2.1) (some sampleFields) ∧ AMap.Sorted ((some sampleFields : Fields).getD []) ∧ Val.CanonE ((some sampleFields : Fields).getD []) ∧ Val.SolidE ((some sampleFields : Fields).getD []) ∧ Val.MadeE ((some sampleFields : Fields).getD []) ∧
    sizeWrapper (messageOf (some sampleFields)) < 2 ^ 63 - 8 := by
  refine ⟨by have := Owns.holds sample_owns.1; rw [sample_owns.2.2.2.2] at this; exact this, by decide, ?_, ?_, ?_, by decide +kernel⟩
  · simp [sampleFields, Val.CanonE, Val.Canon, Val.CanonL, AMap.Sorted]
  · simp [sampleFields, Val.SolidE, Val.Solid, Val.SolidL]
  · simp [sampleFields, Val.MadeE, Val.Made, Val.MadeL]

/-- C91: `true` written into arrays of 2, 3 and 4 bytes of 0xff: only the first result is the message. -/
theorem xxx_sample : (PValue.mk (.boolean true) []).xxxMarshal (List.replicate 2 0xff) = .ok [0x18, 1] ∧ (PValue.mk (.boolean true) []).xxxMarshal (List.replicate 3 0xff) = .ok [0xff, 0x18] ∧
    (PValue.mk (.boolean true) []).xxxMarshal (List.replicate 4 0xff) = .ok [0xff, 0xff] := by decide +kernel

/-! ## `MarshalTo` and `MarshalToSizedBuffer` -/

/-- The methods `MarshalTo` and `MarshalToSizedBuffer` of a message (on an array; the second with the length of the slice), and what `Marshal` of it returns. -/
inductive EncodesTo : (Bytes → Res (Bytes × Nat)) → (Bytes → Nat → Res (Bytes × Nat)) → Bytes → Prop
  | wrapper {m : PWrapper} : NoNil m → EncodesTo m.marshalTo (fun a n => marshalWrapper m a 0 n) (encWrapper m)
  | log {m : PLog} : m ≠ .nil → (∀ fs w u, m = .mk (.mk fs w) u → NoNilFields fs) → EncodesTo m.marshalTo (fun a n => marshalLog m a 0 n) (encLog m)
  | value {m : PValue} : NoNilValue m → EncodesTo m.marshalTo (fun a n => marshalValue m a 0 n) (encValue m)
  | array {items : List PValue} {u : Bytes} : NoNilItems items → EncodesTo (PArray.mk items u).marshalTo (fun a n => marshalArray (.mk items u) a 0 n) (encItems items ++ u)
  | object {fields : List (Bytes × PValue)} {u : Bytes} : NoNilFields fields → EncodesTo (PObject.mk fields u).marshalTo (fun a n => marshalObject (.mk fields u) a 0 n) (encFields fields ++ u)

theorem EncodesTo.eq {f : Bytes → Res (Bytes × Nat)} {g : Bytes → Nat → Res (Bytes × Nat)} {enc : Bytes} (h : EncodesTo f g enc) :
    (∀ array, f array = marshalToWith enc.length (fun a _ n => g a n) array) ∧ ∀ {mem : Bytes} {a : Nat}, a + enc.length ≤ mem.length → g mem (a + enc.length) = .ok (writeAt mem a enc, enc.length) := by
  cases h with
  | wrapper h =>
    refine ⟨fun array => ?_, fun hm => marshalWrapper_eq h hm⟩
    rw [PWrapper.marshalTo, sizeWrapper_eq]; rfl
  | log h1 h2 =>
    refine ⟨fun array => ?_, fun {mem a} hm => by have := marshalLog_eq h1 h2 (mem := mem) (off := 0) (a := a) (by omega); rw [Nat.zero_add] at this; exact this⟩
    rw [PLog.marshalTo, sizeLog_eq]; rfl
  | value h =>
    refine ⟨fun array => ?_, fun {mem a} hm => by have := marshalValue_eq _ h (mem := mem) (off := 0) (a := a) (by omega); rw [Nat.zero_add] at this; exact this⟩
    rw [PValue.marshalTo, sizeValue_eq]; rfl
  | @array items u h =>
    refine ⟨fun array => ?_, fun hm => marshalArray_eq _ h hm⟩
    rw [PArray.marshalTo, show sizeArray (.mk items u) = (encItems items ++ u).length by simp only [sizeArray, sizeItems_eq, List.length_append]]; rfl
  | @object fields u h =>
    refine ⟨fun array => ?_, fun hm => marshalObject_eq _ h hm⟩
    rw [PObject.marshalTo, show sizeObject (.mk fields u) = (encFields fields ++ u).length by simp only [sizeObject, sizeFields_eq, List.length_append]]; rfl

/-- C91: `MarshalTo` of any kind of message writes the encoding to the beginning of the array behind the slice, leaves the rest of the array as it is and returns the length of the encoding; the array must have room for it up to the capacity of the slice, else it panics. -/
theorem marshal_to {f : Bytes → Res (Bytes × Nat)} {g : Bytes → Nat → Res (Bytes × Nat)} {enc : Bytes} (h : EncodesTo f g enc) (array : Bytes) :
    f array = if enc.length ≤ array.length then .ok (enc ++ array.drop enc.length, enc.length) else .panic := by
  obtain ⟨h1, h2⟩ := h.eq
  rw [h1, marshalToWith]
  split
  · next hl =>
    have := h2 (mem := array) (a := 0) (by omega)
    rw [Nat.zero_add] at this
    rw [this]
    simp [writeAt]
  · rfl

/-- C91: `MarshalToSizedBuffer` writes the encoding to the end of the slice, and returns its length. -/
theorem marshal_to_sized {f : Bytes → Res (Bytes × Nat)} {g : Bytes → Nat → Res (Bytes × Nat)} {enc : Bytes} (h : EncodesTo f g enc) {array : Bytes} {len : Nat} (hl : enc.length ≤ len) (hc : len ≤ array.length) :
    g array len = .ok (array.take (len - enc.length) ++ enc ++ array.drop len, enc.length) := by
  obtain ⟨_, h2⟩ := h.eq
  have := h2 (mem := array) (a := len - enc.length) (by omega)
  rw [Nat.sub_add_cancel hl] at this
  rw [this, writeAt, Nat.sub_add_cancel hl]

theorem marshal_to_sample : (PValue.mk (.boolean true) []).marshalTo [1, 2, 3, 4] = .ok ([0x18, 1, 3, 4], 2) ∧ (PValue.mk (.boolean true) []).marshalTo [1] = .panic ∧
    marshalValue (PValue.mk (.boolean true) []) [1, 2, 3, 4] 0 3 = .ok ([1, 0x18, 1, 4], 2) := by decide +kernel
end Sawmill
